import Verif.Model.CholInvFns
import Verif.Proof.CholInvAny
import Verif.Proof.CholFns
import Verif.Proof.QrdFixed
import Verif.Props.Reciprocal
import Verif.Props.ComplexRec
import Verif.Props.DivFixed

/-! # The arithmetic of ac_cholinv on ac_fixed is accurate -/

namespace Proof.CholInvFns
open Ac Model.CholInv Spec.CholInvArith Spec.CholArith Proof.CholFns Proof.CholRound Proof.QrdFixed

theorem div_recip {t : Fmt} (hW : 1 ≤ t.W) (hS : t.S = true) (hF : 0 ≤ t.F) (junk : ℚ) {x : ℚ} (hx : t.Rep x) (h0 : x ≠ 0) :
    recipReal false t junk x = t.cvt (1 / x) := by
  obtain ⟨r, r0, r1, e⟩ := hx
  have hr : r ≠ 0 := by
    rintro rfl
    exact h0 (by rw [e]; unfold Fmt.val; simp)
  have b0 : -2 ^ (t.W - 1) ≤ r := by simpa [minRaw, hS] using r0
  have b1 : r < 2 ^ (t.W - 1) := by
    have : r ≤ 2 ^ (t.W - 1) - 1 := by simpa [maxRaw, hS] using r1
    omega
  have hv : (⟨2, 2, true, .TRN, .WRAP⟩ : Fmt).val 1 = 1 := by norm_num [Fmt.val, Fmt.F]
  simp only [recipReal, Bool.false_eq_true, if_false]
  rw [e, Fmt.raw_val]
  by_cases hO : t.O = .WRAP
  · rw [(Props.DivFixed.C04_signed_wrap_partial (fn := ⟨2, 2, true, .TRN, .WRAP⟩) (fd := t) (fq := t) (by decide) hW hW hS hO
      (by unfold Props.DivFixed.Reaches Props.DivFixed.guard; split_ifs <;> simp only [] <;> omega) (by decide) (by decide)
      b0 b1 hr junk).1, hv]
  · rw [(Props.DivFixed.C04_signed_sat (fn := ⟨2, 2, true, .TRN, .WRAP⟩) (fd := t) (fq := t) (by decide) hW hW hS hO
      (by simp only []; omega) (by decide) (by decide) b0 b1 hr junk).1, hv]

/-- The relative error of the reciprocal. -/
def theta (pwl : Bool) (t : Fmt) (B : ℚ) : ℚ := B * 2 ^ (-t.F) + if pwl then 3 / 1024 else 0

/-- What the reciprocal needs of the type. -/
structure RecOk (pwl : Bool) (t : Fmt) (κ : ℚ) : Prop where
  W : 1 ≤ t.W
  S : t.S = true
  F : pwl = false → 0 ≤ t.F
  pos : 0 < κ
  fits : (if pwl then 1 + 3 / 1024 else 1) ≤ κ * t.maxVal

theorem near_mul {y z x u B : ℚ} (h : |y - z| ≤ u) (h0 : 0 < x) (hB : x ≤ B) : |y * x - z * x| ≤ B * u := by
  rw [← sub_mul, abs_mul, abs_of_pos h0, mul_comm B]
  exact mul_le_mul h hB h0.le ((abs_nonneg _).trans h)

theorem real_recip {pwl : Bool} {t : Fmt} {κ B : ℚ} (h : RecOk pwl t κ) (junk : ℚ) {x : ℚ} (hx : t.Rep x) (h0 : κ ≤ x) (h1 : x ≤ B) :
    |recipReal pwl t junk x * x - 1| ≤ theta pwl t B := by
  have hx0 : 0 < x := h.pos.trans_le h0
  have hfit := h.fits
  have hmax : 0 < t.maxVal := by
    by_contra hc
    have := mul_nonpos_of_nonneg_of_nonpos h.pos.le (not_lt.1 hc)
    split_ifs at hfit <;> linarith
  have hm := mul_le_mul_of_nonneg_right h0 hmax.le
  have e1 : 1 / x * x = 1 := one_div_mul_cancel hx0.ne'
  cases pwl
  · simp only [Bool.false_eq_true, if_false] at hfit
    rw [div_recip h.W h.S (h.F rfl) junk hx hx0.ne']
    have hb : |1 / x| ≤ t.maxVal := by
      rw [abs_of_pos (one_div_pos.2 hx0), div_le_iff₀ hx0]
      linarith
    have := near_mul (cvt_near h.W h.S hb) hx0 h1
    rw [e1] at this
    simpa [theta] using this
  · simp only [if_true] at hfit
    obtain ⟨y, hy, he⟩ := Props.Reciprocal.C29_output .TRN h.W h.W hx hx0 (out := t) (by
      rw [div_le_iff₀ hx0]; linarith)
    have er : recipReal true t junk x = y := by simp only [recipReal, if_true]; rw [hy]; rfl
    rw [er]
    have e2 : y * x - 1 = (y - 1 / x) * x := by rw [sub_mul, e1]
    rw [e2, abs_mul, abs_of_pos hx0]
    have h2 := mul_le_mul_of_nonneg_right he.le hx0.le
    rw [add_mul, div_mul_cancel₀ _ hx0.ne'] at h2
    have h3 := mul_le_mul_of_nonneg_left h1 (Fmt.z_pos (-t.F)).le
    simp only [theta, if_true]
    rw [mul_comm] at h3
    linarith

theorem complex_recip {pwl : Bool} {out t fm : Fmt} {κ B : ℚ} (h : RecOk pwl t κ) (hfm : pwl = true → Props.ComplexRec.Holds t fm B 0)
    (junk : ℚ) {x : ℚ} (hx : t.Rep x) (h0 : κ ≤ x) (h1 : x ≤ B) :
    ∃ y, (complexOps pwl out t fm junk).recip (x, 0) = (y, 0) ∧ |y * x - 1| ≤ theta pwl t B := by
  have hx0 : 0 < x := h.pos.trans_le h0
  cases pwl
  · exact ⟨recipReal false t junk x, by simp [complexOps], real_recip h junk hx h0 h1⟩
  · have hf := hfm rfl
    have hfit := h.fits
    simp only [if_true] at hfit
    have hmax : 0 < t.maxVal := by
      by_contra hc
      have := mul_nonpos_of_nonneg_of_nonpos h.pos.le (not_lt.1 hc)
      linarith
    have hm := mul_le_mul_of_nonneg_right h0 hmax.le
    have z0 : t.Rep 0 := by
      have := Fmt.rep_cvt (f := t) h.W (0 : ℚ)
      rwa [Fmt.cvt_zero' h.W] at this
    obtain ⟨c, hc, he⟩ := Props.ComplexRec.C56_reciprocal .TRN (out := t) h.W hx z0
      (⟨hf.W, hf.S, hf.O, hf.F, lt_of_le_of_lt (by
        have := pow_le_pow_left₀ hx0.le h1 2
        linarith) hf.I⟩ : Props.ComplexRec.Holds t fm x 0) (Or.inl hx0.ne')
    refine ⟨t.cvt (x * c), ?_, ?_⟩
    · simp only [complexOps, if_true]
      rw [hc]
      simp [Fmt.cvt_zero' h.W]
    · have e : c * (x ^ 2 + 0 ^ 2) = x * c * x := by ring
      rw [e] at he
      obtain ⟨g0, g1⟩ := abs_lt.1 he
      have c0 : 0 < x * c := by
        by_contra hc'
        have := mul_nonpos_of_nonpos_of_nonneg (not_lt.1 hc') hx0.le
        linarith
      have hb : |x * c| ≤ t.maxVal := by
        rw [abs_of_pos c0]
        have : x * c * x ≤ t.maxVal * x := by linarith
        exact le_of_mul_le_mul_right this hx0
      have h2 := near_mul (cvt_near h.W h.S hb) hx0 h1
      have h3 := abs_add_le (t.cvt (x * c) * x - x * c * x) (x * c * x - 1)
      rw [sub_add_sub_cancel] at h3
      simp only [theta, if_true]
      linarith

theorem rv_near {f : Fmt} (hW : 1 ≤ f.W) (hS : f.S = true) {x : ℚ} (h : ‖rv x‖ ≤ (f.maxVal : ℝ)) :
    ‖rv (f.cvt x) - rv x‖ ≤ 2 ^ (-f.F) := by
  rw [norm_rv] at h
  rw [rv_sub, norm_rv]
  exact cast_near hW hS h

theorem neg_rv (a : ℚ) : -rv a = rv (-a) := by unfold rv; push_cast; rfl

theorem real_acc {pwl : Bool} {out t : Fmt} {κ B : ℚ} (h : RecOk pwl t κ) (hWo : 1 ≤ out.W) (hSo : out.S = true) (junk : ℚ) :
    Accurate (realOps pwl out t junk) rv rv t.Rep t.maxVal out.maxVal (2 ^ (-t.F)) (2 ^ (-out.F)) κ B (theta pwl t B : ℚ) where
  zero := by simp [realOps, rv]
  acc0 s hs := by
    have := rv_near h.W h.S hs
    simp only [realOps, add_zero]; exact this
  acc s x y hs := by
    rw [rv_mul, rv_add] at hs ⊢
    exact rv_near h.W h.S hs
  accC s x y hs := by
    rw [star_rv, rv_mul, rv_add] at hs ⊢
    exact rv_near h.W h.S hs
  negMul s r hs := by
    rw [← norm_neg, rv_mul, neg_rv] at hs
    have := rv_near h.W h.S hs
    rw [← neg_rv, sub_neg_eq_add] at this
    rw [rv_mul]
    exact this
  recip x d hx hd h0 h1 := by
    have hd : (x : ℝ) = d := Complex.ofReal_injective hd
    subst hd
    have := real_recip h junk hx (Rat.cast_le.1 h0) (Rat.cast_le.1 h1)
    have e : rv (recipReal pwl t junk x) * ((x : ℝ) : ℂ) - 1 = rv (recipReal pwl t junk x * x - 1) := by
      unfold rv; push_cast; rfl
    change ‖rv (recipReal pwl t junk x) * ((x : ℝ) : ℂ) - 1‖ ≤ _
    rw [e, norm_rv]
    exact Rat.cast_le.2 this
  out s hs := rv_near hWo hSo hs

theorem cv_mul' (a b : ℚ × ℚ) : cv a * cv b = cv (a.1 * b.1 - a.2 * b.2, a.1 * b.2 + a.2 * b.1) := by
  apply Complex.ext <;> simp [cv]

theorem star_mul_cv (a b : ℚ × ℚ) : star (cv a) * cv b = cv (a.1 * b.1 + a.2 * b.2, a.1 * b.2 - a.2 * b.1) := by
  apply Complex.ext
  · simp [cv]
  · simp [cv]; ring

theorem cv_zero : cv (0, 0) = 0 := by apply Complex.ext <;> simp [cv]

theorem near2 {f : Fmt} (hW : 1 ≤ f.W) (hS : f.S = true) (a b : ℚ) (h : ‖cv (a, b)‖ ≤ (f.maxVal : ℝ)) :
    ‖cv (f.cvt a, f.cvt b) - cv (a, b)‖ ≤ 2 * 2 ^ (-f.F) := cvt_near2 (x := (a, b)) hW hS h

theorem cv_real {a b : ℚ} {d : ℝ} (h : cv (a, b) = d) : (a : ℝ) = d ∧ b = 0 := by
  have h1 := congrArg Complex.re h
  have h2 := congrArg Complex.im h
  exact ⟨by simpa [cv] using h1, by simpa [cv] using h2⟩

theorem cv_real_mul (y x : ℚ) : cv (y, 0) * ((x : ℝ) : ℂ) - 1 = rv (y * x - 1) := by
  apply Complex.ext <;> simp [cv, rv]

theorem complex_acc {pwl : Bool} {out t fm : Fmt} {κ B : ℚ} (h : RecOk pwl t κ) (hfm : pwl = true → Props.ComplexRec.Holds t fm B 0)
    (hWo : 1 ≤ out.W) (hSo : out.S = true) (junk : ℚ) :
    Accurate (complexOps pwl out t fm junk) cv cv (fun x => t.Rep x.1) t.maxVal out.maxVal (2 * 2 ^ (-t.F)) (2 * 2 ^ (-out.F)) κ B
      (theta pwl t B : ℚ) where
  zero := cv_zero
  acc0 s hs := by
    simp only [complexOps, add_zero]
    exact near2 h.W h.S s.1 s.2 hs
  acc s x y hs := by
    rw [cv_mul', cv_add] at hs ⊢
    simp only [complexOps]
    exact near2 h.W h.S _ _ hs
  accC s x y hs := by
    rw [star_mul_cv, cv_add] at hs ⊢
    simp only [complexOps]
    exact near2 h.W h.S _ _ hs
  negMul s r hs := by
    rw [← norm_neg, cv_mul', neg_cv] at hs
    rw [cv_mul', ← sub_neg_eq_add, neg_cv]
    simp only [complexOps]
    exact near2 h.W h.S _ _ hs
  recip x d hx hd h0 h1 := by
    obtain ⟨a, b⟩ := x
    obtain ⟨rfl, rfl⟩ := cv_real hd
    obtain ⟨y, e, hy⟩ := complex_recip (out := out) (B := B) h hfm junk hx (Rat.cast_le.1 h0) (Rat.cast_le.1 h1)
    rw [e, cv_real_mul, norm_rv]
    exact Rat.cast_le.2 hy
  out s hs := by
    simp only [complexOps]
    exact near2 hWo hSo s.1 s.2 hs

/-- What holds of every diagonal element the decomposition can store. -/
theorem diag_ok {α τ σd σ ρ : Type} [Nonempty σd] {c : Model.Chol.Ops α τ σd σ ρ} {M : ℕ} {A : Mem α} {L R : Mem τ} {ok : τ → Prop}
    (hd : ∀ p, ok (c.diag p)) (hz : ok c.zero) (h : Model.Chol.chol c M A L = some R) : ∀ i < M, ok (R i i) := by
  obtain ⟨R', F, p, h1, h2, h3⟩ := Proof.Chol.chol_eq c M A L (fun _ => Classical.arbitrary σd)
  obtain rfl : R = R' := Option.some.inj (h.symm.trans h1)
  intro i hi
  rw [h3, if_pos ⟨hi, hi⟩, h2.diag i hi]
  split_ifs
  · exact hz
  · exact hd _

end Proof.CholInvFns
