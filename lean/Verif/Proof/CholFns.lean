import Verif.Model.CholFns
import Verif.Proof.CholAny
import Verif.Proof.CholRound
import Verif.Proof.SqrtPwl
import Verif.Proof.IsqrtPwl

/-! # The element arithmetic of ac_chol_d for ac_fixed and ac_complex<ac_fixed> is accurate -/

namespace Proof.CholFns
open Ac Model.Chol Finset Spec.CholArith Proof.CholRound

theorem real_eq (t : Types) (junk : ℚ) : realOps t (exactFns t junk) = fixedOps t junk := rfl

/-- What the square root and the reciprocal have to deliver for a sum from `lo` to `hi`. -/
structure FnOk (t : Types) (f : Fns) (lo hi κ B ed er rm : ℚ) : Prop where
  stored : ∀ s, t.imd.Rep s → lo ≤ s → s ≤ hi → t.out.cvt (f.diag s) = f.diag s
  low : ∀ s, t.imd.Rep s → lo ≤ s → s ≤ hi → κ ≤ f.diag s
  high : ∀ s, t.imd.Rep s → lo ≤ s → s ≤ hi → f.diag s ≤ B
  sq : ∀ s, t.imd.Rep s → lo ≤ s → s ≤ hi → |f.diag s ^ 2 - s| ≤ ed
  inv : ∀ s, t.imd.Rep s → lo ≤ s → s ≤ hi → |f.recip s * f.diag s - 1| ≤ er
  bnd : ∀ s, t.imd.Rep s → lo ≤ s → s ≤ hi → |f.recip s| ≤ rm

theorem exact_ok {t : Types} (hWo : 1 ≤ t.out.W) (hWi : 1 ≤ t.imd.W) (hSo : t.out.S = true) (hSi : t.imd.S = true)
    (hF : 0 ≤ t.out.F + t.imd.F) (junk : ℚ) {lo hi κ B : ℚ}
    (hv : 2 ^ (-t.out.F) ≤ B) (hB : B ≤ t.out.maxVal) (hhi : hi ≤ (B - 2 ^ (-t.out.F)) ^ 2)
    (hκ : 0 < κ) (hκr : 1 ≤ κ * (unsignedFmt t.imd).maxVal) (hlo : (κ + 2 ^ (-t.out.F)) ^ 2 ≤ lo) :
    FnOk t (exactFns t junk) lo hi κ B (2 * B * 2 ^ (-t.out.F)) (2 ^ (-t.imd.F) * B) (1 / κ + 2 ^ (-t.imd.F)) := by
  have hvp : (0 : ℚ) < 2 ^ (-t.out.F) := Fmt.z_pos _
  have hu : (0 : ℚ) < 2 ^ (-t.imd.F) := Fmt.z_pos _
  have hk2 : 0 < (κ + 2 ^ (-t.out.F)) ^ 2 := pow_pos (by linarith) 2
  have key : ∀ s, t.imd.Rep s → lo ≤ s → s ≤ hi → t.out.cvt (imdLjj t s) = imdLjj t s ∧
      (unsignedFmt t.out).Rep (imdLjj t s) ∧ κ ≤ imdLjj t s ∧ imdLjj t s ≤ B ∧
      |imdLjj t s ^ 2 - s| ≤ 2 * B * 2 ^ (-t.out.F) := by
    intro s hs h0 h1
    obtain ⟨d1, d2, d3, d4, d5, d6⟩ := diag_ok hWo hWi hSo hSi hs (by linarith) hv hB (h1.trans hhi)
    exact ⟨d1, d2, d6 κ hκ.le (by linarith), d4, d5⟩
  have rk : ∀ s, t.imd.Rep s → lo ≤ s → s ≤ hi → |(exactFns t junk).recip s - 1 / imdLjj t s| ≤ 2 ^ (-t.imd.F) := by
    intro s hs h0 h1
    obtain ⟨d1, d2, d3, d4, d5⟩ := key s hs h0 h1
    exact recip_ok hWo hWi hF junk d2 (by linarith) (hκr.trans (mul_le_mul_of_nonneg_right d3 (by
      by_contra hc
      have := mul_neg_of_pos_of_neg hκ (not_le.1 hc)
      linarith)))
  refine ⟨fun s hs h0 h1 => (key s hs h0 h1).1, fun s hs h0 h1 => (key s hs h0 h1).2.2.1,
    fun s hs h0 h1 => (key s hs h0 h1).2.2.2.1, fun s hs h0 h1 => (key s hs h0 h1).2.2.2.2, fun s hs h0 h1 => ?_,
    fun s hs h0 h1 => ?_⟩
  · obtain ⟨d1, d2, d3, d4, d5⟩ := key s hs h0 h1
    have hd : 0 < imdLjj t s := by linarith
    change |(exactFns t junk).recip s * imdLjj t s - 1| ≤ _
    have e : (exactFns t junk).recip s * imdLjj t s - 1 = ((exactFns t junk).recip s - 1 / imdLjj t s) * imdLjj t s := by
      rw [sub_mul, one_div, inv_mul_cancel₀ hd.ne']
    rw [e, abs_mul, abs_of_pos hd]
    exact mul_le_mul (rk s hs h0 h1) d4 hd.le hu.le
  · obtain ⟨d1, d2, d3, d4, d5⟩ := key s hs h0 h1
    have a := abs_add_le ((exactFns t junk).recip s - 1 / imdLjj t s) (1 / imdLjj t s)
    rw [sub_add_cancel] at a
    have b : |1 / imdLjj t s| ≤ 1 / κ := by
      rw [abs_of_pos (one_div_pos.2 (by linarith))]
      exact one_div_le_one_div_of_le hκ d3
    have := rk s hs h0 h1
    linarith

/-- Unsigned results that fit the signed output type. -/
theorem stored {f : Fmt} (hW : 1 ≤ f.W) {d : ℚ} (hd : (unsignedFmt f).Rep d) (h : d ≤ f.maxVal) : f.cvt d = d := by
  obtain ⟨r, r0, -, r1⟩ := hd
  have r0 : 0 ≤ r := by simpa [unsignedFmt, minRaw] using r0
  have r1 : d = f.val r := r1
  have r2 : r ≤ maxRaw f.W f.S := by
    have : f.val r ≤ f.val (maxRaw f.W f.S) := by rw [← r1]; exact h
    exact Fmt.val_le.1 this
  rw [r1]
  exact Fmt.cvt_val (f := f) hW ((loRaw_nonpos _ _ _).trans r0) r2

theorem near_one {a b x : ℚ} (hx : 0 < x) (ha : 0 < a) (hb : 0 < b) (h1 : |a ^ 2 - x| ≤ x / 440) (h2 : |b ^ 2 * x - 1| ≤ 3 / 2000) :
    |b * a - 1| ≤ 1 / 500 := by
  obtain ⟨p1, p2⟩ := abs_le.1 h1
  obtain ⟨q1, q2⟩ := abs_le.1 h2
  have e : (b * a) ^ 2 * x = (b ^ 2 * x) * a ^ 2 := by ring
  have lo : (b * a) ^ 2 * x ≥ (1997 / 2000) * (439 / 440) * x := by
    rw [e]
    have := mul_le_mul (show (1997 / 2000 : ℚ) ≤ b ^ 2 * x by linarith) (show x * (439 / 440) ≤ a ^ 2 by linarith)
      (by positivity) (by positivity)
    linarith
  have hi : (b * a) ^ 2 * x ≤ (2003 / 2000) * (441 / 440) * x := by
    rw [e]
    have := mul_le_mul (show b ^ 2 * x ≤ (2003 / 2000 : ℚ) by linarith) (show a ^ 2 ≤ x * (441 / 440) by linarith)
      (by positivity) (by norm_num)
    linarith
  have lo' : (1997 / 2000) * (439 / 440) ≤ (b * a) ^ 2 := le_of_mul_le_mul_right lo hx
  have hi' : (b * a) ^ 2 ≤ (2003 / 2000) * (441 / 440) := le_of_mul_le_mul_right hi hx
  have hp : 0 < b * a := mul_pos hb ha
  rw [abs_le]
  constructor
  · by_contra hc
    have : b * a < 499 / 500 := by linarith
    have := pow_lt_pow_left₀ this hp.le (n := 2) (by norm_num)
    norm_num at this lo'
    linarith
  · by_contra hc
    have : 501 / 500 < b * a := by linarith
    have := pow_lt_pow_left₀ this (by norm_num) (n := 2) (by norm_num)
    norm_num at this hi'
    linarith

theorem pwl_ok {t : Types} (hWo : 1 ≤ t.out.W) (hWi : 1 ≤ t.imd.W) (hSo : t.out.S = true) (hSi : t.imd.S = true)
    (junk : ℚ) {lo hi κ B : ℚ}
    (hv : 2 ^ (-t.out.F) ≤ B) (hB : B ≤ t.out.maxVal) (hhi : 441 / 440 * hi ≤ (B - 2 ^ (-t.out.F)) ^ 2)
    (hκ : 0 < κ) (hκr : 1 ≤ κ * (unsignedFmt t.imd).maxVal) (hlo : 440 / 439 * (κ + 2 ^ (-t.out.F)) ^ 2 ≤ lo) :
    FnOk t (pwlFns t junk) lo hi κ B (2 * B * 2 ^ (-t.out.F) + hi / 440) (2 ^ (-t.imd.F) * B + 2 ^ (-t.out.F) / κ + 1 / 500)
      (1 / κ + 2 ^ (-t.imd.F)) := by
  have hvp : (0 : ℚ) < 2 ^ (-t.out.F) := Fmt.z_pos _
  have hu : (0 : ℚ) < 2 ^ (-t.imd.F) := Fmt.z_pos _
  have hk2 : 0 < (κ + 2 ^ (-t.out.F)) ^ 2 := pow_pos (by linarith) 2
  have key : ∀ s, t.imd.Rep s → lo ≤ s → s ≤ hi → ∃ a b : ℚ, 0 < a ∧ 0 < b ∧ |a ^ 2 - s| ≤ s / 440 ∧ |b ^ 2 * s - 1| ≤ 3 / 2000 ∧
      (unsignedFmt t.out).Rep ((pwlFns t junk).diag s) ∧
      |(pwlFns t junk).diag s - a| ≤ 2 ^ (-t.out.F) ∧ |(pwlFns t junk).recip s - b| ≤ 2 ^ (-t.imd.F) ∧
      κ + 2 ^ (-t.out.F) ≤ a ∧ a ≤ B - 2 ^ (-t.out.F) ∧ b ≤ 1 / κ := by
    intro s hs h0 h1
    have hs0 : 0 < s := by linarith
    have e1 : (unsignedFmt t.imd).cvt s = s := cvt_unsigned hWi hSi hs hs0.le
    have hrep : (unsignedFmt t.imd).Rep s := by rw [← e1]; exact Fmt.rep_cvt (f := unsignedFmt t.imd) hWi s
    have d1 := Proof.SqrtPwl.sqrt_eq .TRN true (f := unsignedFmt t.imd) (out := unsignedFmt t.out) hWi rfl hWo rfl hrep hs0 (Or.inl rfl)
    have d2 := Proof.SqrtPwl.core_err (q := .TRN) (cn := true) (f := unsignedFmt t.imd) hWi rfl hrep hs0 (Or.inl rfl)
    have r1 := Proof.IsqrtPwl.inverseSqrt_eq .TRN true (f := unsignedFmt t.imd) (out := unsignedFmt t.imd) hWi rfl hWi rfl hrep hs0
      (Or.inl rfl)
    have r2 := Proof.IsqrtPwl.core_err (q := .TRN) (cn := true) (f := unsignedFmt t.imd) hWi rfl hrep hs0 (Or.inl rfl)
    have d3 : (pwlFns t junk).diag s = (unsignedFmt t.out).cvt (Proof.SqrtPwl.core .TRN true (unsignedFmt t.imd) s) := by
      simp only [pwlFns]; rw [e1, d1]; rfl
    have r3 : (pwlFns t junk).recip s = (unsignedFmt t.imd).cvt (Proof.IsqrtPwl.core .TRN true (unsignedFmt t.imd) s) := by
      simp only [pwlFns]; rw [e1, r1]; rfl
    rw [d3, r3]
    generalize Proof.SqrtPwl.core .TRN true (unsignedFmt t.imd) s = a at *
    generalize Proof.IsqrtPwl.core .TRN true (unsignedFmt t.imd) s = b at *
    obtain ⟨d4, a0⟩ := d2
    obtain ⟨r4, b0⟩ := r2
    obtain ⟨p1, p2⟩ := abs_le.1 d4
    have alo : κ + 2 ^ (-t.out.F) ≤ a := by
      refine le_of_sq_le_sq ?_ a0.le
      linarith
    have ahi : a ≤ B - 2 ^ (-t.out.F) := by
      refine le_of_sq_le_sq ?_ (by linarith)
      linarith
    have bhi : b ≤ 1 / κ := by
      refine le_of_sq_le_sq ?_ (one_div_pos.2 hκ).le
      have q2 := (abs_le.1 r4).2
      have hκ2 : κ ^ 2 ≤ (κ + 2 ^ (-t.out.F)) ^ 2 := pow_le_pow_left₀ hκ.le (by linarith) 2
      have h2 : b ^ 2 * (440 / 439 * κ ^ 2) ≤ b ^ 2 * s :=
        mul_le_mul_of_nonneg_left (by linarith) (sq_nonneg _)
      rw [div_pow, one_pow, le_div_iff₀ (pow_pos hκ 2)]
      linarith
    refine ⟨a, b, a0, b0, d4, r4, Fmt.rep_cvt (f := unsignedFmt t.out) hWo _, ?_, ?_, alo, ahi, bhi⟩
    · have := unsigned_near (R := ℚ) (f := unsignedFmt t.out) (x := a) hWo rfl a0.le (by
        have := maxVal_unsigned hSo
        rw [Rat.cast_id]; linarith)
      rw [Rat.cast_id] at this
      exact this
    · have := unsigned_near (R := ℚ) (f := unsignedFmt t.imd) (x := b) hWi rfl b0.le (by
        rw [Rat.cast_id]
        refine bhi.trans ?_
        rw [div_le_iff₀ hκ]; linarith)
      rw [Rat.cast_id] at this
      exact this
  refine ⟨fun s hs h0 h1 => ?_, fun s hs h0 h1 => ?_, fun s hs h0 h1 => ?_, fun s hs h0 h1 => ?_, fun s hs h0 h1 => ?_,
    fun s hs h0 h1 => ?_⟩
  all_goals
    obtain ⟨a, b, a0, b0, h2, h3, h4, h5, h6, h7, h8, h9⟩ := key s hs h0 h1
    generalize (pwlFns t junk).diag s = d at *
    generalize (pwlFns t junk).recip s = r at *
    obtain ⟨p1, p2⟩ := abs_le.1 h5
  · exact stored hWo h4 (by linarith)
  · linarith
  · linarith
  · have e : d ^ 2 - s = (d - a) * (d + a) + (a ^ 2 - s) := by ring
    rw [e]
    have h10 := abs_add_le ((d - a) * (d + a)) (a ^ 2 - s)
    have h11 : |(d - a) * (d + a)| ≤ 2 ^ (-t.out.F) * (2 * B) := by
      rw [abs_mul, abs_of_nonneg (show 0 ≤ d + a by linarith)]
      exact mul_le_mul h5 (by linarith) (by linarith) hvp.le
    linarith
  · have e : r * d - 1 = (r - b) * d + b * (d - a) + (b * a - 1) := by ring
    rw [e]
    have h10 := abs_add_le ((r - b) * d + b * (d - a)) (b * a - 1)
    have h11 := abs_add_le ((r - b) * d) (b * (d - a))
    have h12 : |(r - b) * d| ≤ 2 ^ (-t.imd.F) * B := by
      rw [abs_mul, abs_of_nonneg (show 0 ≤ d by linarith)]
      exact mul_le_mul h6 (by linarith) (by linarith) hu.le
    have h13 : |b * (d - a)| ≤ 1 / κ * 2 ^ (-t.out.F) := by
      rw [abs_mul, abs_of_pos b0]
      exact mul_le_mul h9 h5 (abs_nonneg _) (one_div_pos.2 hκ).le
    have h14 := near_one (by linarith) a0 b0 h2 h3
    have h15 : 1 / κ * 2 ^ (-t.out.F) = 2 ^ (-t.out.F) / κ := by rw [one_div, inv_mul_eq_div]
    linarith
  · have := abs_add_le (r - b) b
    rw [sub_add_cancel, abs_of_pos b0] at this
    linarith

/-- The number an ac_fixed stands for. -/
noncomputable def rv (q : ℚ) : ℂ := ((q : ℝ) : ℂ)

theorem norm_rv (q : ℚ) : ‖rv q‖ = ((|q| : ℚ) : ℝ) := by
  unfold rv
  rw [Complex.norm_real, Real.norm_eq_abs, Rat.cast_abs]

theorem rv_sub (a b : ℚ) : rv a - rv b = rv (a - b) := by unfold rv; push_cast; rfl
theorem rv_mul (a b : ℚ) : rv a * rv b = rv (a * b) := by unfold rv; push_cast; rfl
theorem star_rv (a : ℚ) : star (rv a) = rv a := Complex.conj_ofReal _

theorem u_cast (n : ℤ) : (((2 : ℚ) ^ n : ℚ) : ℝ) = 2 ^ n := by push_cast; rfl

theorem cast_near {f : Fmt} (hW : 1 ≤ f.W) (hS : f.S = true) {x : ℚ} (h : ((|x| : ℚ) : ℝ) ≤ (f.maxVal : ℝ)) :
    ((|f.cvt x - x| : ℚ) : ℝ) ≤ 2 ^ (-f.F) := by
  rw [← u_cast]
  exact Rat.cast_le.2 (cvt_near hW hS (Rat.cast_le.1 h))

theorem off_err {r d S y v σ B er : ℚ} (h0 : 0 ≤ d) (hB : d ≤ B) (hr : |r * d - 1| ≤ er) (hS : |S| ≤ σ) (hy : |y - r * S| ≤ v) :
    |y * d - S| ≤ B * v + σ * er := by
  have e : y * d - S = (y - r * S) * d + S * (r * d - 1) := by ring
  rw [e]
  have h1 : |(y - r * S) * d| ≤ v * B := by
    rw [abs_mul, abs_of_nonneg h0]; exact mul_le_mul hy hB h0 ((abs_nonneg _).trans hy)
  have h2 : |S * (r * d - 1)| ≤ σ * er := by
    rw [abs_mul]; exact mul_le_mul hS hr (abs_nonneg _) ((abs_nonneg _).trans hS)
  have := abs_add_le ((y - r * S) * d) (S * (r * d - 1))
  linarith

theorem real_acc {t : Types} (hWo : 1 ≤ t.out.W) (hWi : 1 ≤ t.imd.W) (hSo : t.out.S = true) (hSi : t.imd.S = true)
    {f : Fns} {lo hi κ B ed er rm σ : ℚ} (hf : FnOk t f lo hi κ B ed er rm) (hκ : 0 < κ) (hσ : σ * rm ≤ t.out.maxVal) :
    Accurate (realOps t f) rv rv (fun s => (s : ℝ)) rv t.imd.Rep t.imd.maxVal (2 ^ (-t.imd.F)) lo hi σ κ B ed
      ((B * 2 ^ (-t.out.F) + σ * er : ℚ) : ℝ) where
  okInit a := Fmt.rep_cvt hWi _
  okStep p x := Fmt.rep_cvt hWi _
  dInit a h := by
    rw [norm_rv] at h
    have := cast_near hWi hSi h
    simp only [realOps, rv, Complex.ofReal_re]
    push_cast at this
    exact this
  dStep p x _ h := by
    rw [norm_rv, ← Rat.cast_pow, sq_abs] at h ⊢
    have h' : ((|p - x * x| : ℚ) : ℝ) ≤ (t.imd.maxVal : ℝ) := by push_cast at h ⊢; rw [← pow_two]; exact h
    have := cast_near hWi hSi h'
    simp only [realOps]
    push_cast at this ⊢
    rw [pow_two]; exact this
  pos p := by
    change decide (p ≤ 0) = false ↔ _
    rw [decide_eq_false_iff_not, not_le]
    exact_mod_cast Iff.rfl
  diag p hp h0 h1 := by
    have h0 : lo ≤ p := by exact_mod_cast h0
    have h1 : p ≤ hi := by exact_mod_cast h1
    refine ⟨(f.diag p : ℚ), ?_, ?_, ?_, ?_⟩
    · simp only [realOps]; rw [hf.stored p hp h0 h1]; rfl
    · exact_mod_cast hf.low p hp h0 h1
    · exact_mod_cast hf.high p hp h0 h1
    · exact_mod_cast hf.sq p hp h0 h1
  oInit a h := by
    rw [norm_rv] at h
    simp only [realOps]
    rw [rv_sub, norm_rv]
    exact cast_near hWi hSi h
  oStep q x y _ h := by
    simp only [realOps] at h ⊢
    rw [star_rv, rv_mul, rv_sub, norm_rv] at h
    rw [star_rv, rv_mul, rv_sub, rv_sub, norm_rv]
    exact cast_near hWi hSi h
  off p q hp h0 h1 hq := by
    have h0 : lo ≤ p := by exact_mod_cast h0
    have h1 : p ≤ hi := by exact_mod_cast h1
    rw [norm_rv] at hq
    have hq : |q| ≤ σ := Rat.cast_le.1 hq
    simp only [realOps]
    rw [hf.stored p hp h0 h1, rv_mul, rv_sub, norm_rv]
    have hl := hf.low p hp h0 h1
    refine Rat.cast_le.2 (off_err (by linarith) (hf.high p hp h0 h1) (hf.inv p hp h0 h1) hq (cvt_near hWo hSo ?_))
    rw [abs_mul, mul_comm]
    exact (mul_le_mul hq (hf.bnd p hp h0 h1) (abs_nonneg _) ((abs_nonneg _).trans hq)).trans hσ
  zero := by simp [realOps, rv]

theorem cv_sub (a b : ℚ × ℚ) : cv a - cv b = cv (a.1 - b.1, a.2 - b.2) := by
  apply Complex.ext <;> simp [cv]

theorem cv_mul_star (a b : ℚ × ℚ) : cv a * star (cv b) = cv (a.1 * b.1 + a.2 * b.2, a.2 * b.1 - a.1 * b.2) := by
  apply Complex.ext
  · simp [cv]
  · simp [cv]; ring

theorem norm_cv_sq (a : ℚ × ℚ) : ‖cv a‖ ^ 2 = ((a.1 * a.1 + a.2 * a.2 : ℚ) : ℝ) := by
  rw [← Complex.normSq_eq_norm_sq, Complex.normSq_apply]
  simp [cv]

theorem re_cv (a : ℚ × ℚ) : ((|a.1| : ℚ) : ℝ) ≤ ‖cv a‖ := by
  have := Complex.abs_re_le_norm (cv a)
  rw [Rat.cast_abs]; exact this

theorem im_cv (a : ℚ × ℚ) : ((|a.2| : ℚ) : ℝ) ≤ ‖cv a‖ := by
  have := Complex.abs_im_le_norm (cv a)
  rw [Rat.cast_abs]; exact this

theorem norm_cv_le (a : ℚ × ℚ) : ‖cv a‖ ≤ ((|a.1| : ℚ) : ℝ) + ((|a.2| : ℚ) : ℝ) := by
  have := Complex.norm_le_abs_re_add_abs_im (cv a)
  rw [Rat.cast_abs, Rat.cast_abs]; exact this

theorem complex_acc {t : Types} (hWo : 1 ≤ t.out.W) (hWi : 1 ≤ t.imd.W) (hSo : t.out.S = true) (hSi : t.imd.S = true)
    {f : Fns} {lo hi κ B ed er rm σ : ℚ} (hf : FnOk t f lo hi κ B ed er rm) (hκ : 0 < κ) (hσ : σ * rm ≤ t.out.maxVal) :
    Accurate (complexOps t f) cv cv (fun s => (s : ℝ)) cv t.imd.Rep t.imd.maxVal (2 * 2 ^ (-t.imd.F)) lo hi σ κ B ed
      ((B * (2 * 2 ^ (-t.out.F)) + σ * er : ℚ) : ℝ) where
  okInit a := Fmt.rep_cvt hWi _
  okStep p x := Fmt.rep_cvt hWi _
  dInit a h := by
    have := cast_near hWi hSi ((re_cv a).trans h)
    have hu : (0 : ℝ) < 2 ^ (-t.imd.F) := zpow_pos (by norm_num) _
    simp only [complexOps, cv]
    push_cast at this
    linarith
  dStep p x _ h := by
    rw [norm_cv_sq] at h ⊢
    have hu : (0 : ℝ) < 2 ^ (-t.imd.F) := zpow_pos (by norm_num) _
    have h' : ((|p - (x.1 * x.1 + x.2 * x.2)| : ℚ) : ℝ) ≤ (t.imd.maxVal : ℝ) := by push_cast at h ⊢; exact h
    have := cast_near hWi hSi h'
    simp only [complexOps]
    push_cast at this ⊢
    linarith
  pos p := by
    change decide (p ≤ 0) = false ↔ _
    rw [decide_eq_false_iff_not, not_le]
    exact_mod_cast Iff.rfl
  diag p hp h0 h1 := by
    have h0 : lo ≤ p := by exact_mod_cast h0
    have h1 : p ≤ hi := by exact_mod_cast h1
    refine ⟨(f.diag p : ℚ), ?_, ?_, ?_, ?_⟩
    · simp only [complexOps]; rw [hf.stored p hp h0 h1]; apply Complex.ext <;> simp [cv]
    · exact_mod_cast hf.low p hp h0 h1
    · exact_mod_cast hf.high p hp h0 h1
    · exact_mod_cast hf.sq p hp h0 h1
  oInit a h := by
    have h1 := cast_near hWi hSi ((re_cv a).trans h)
    have h2 := cast_near hWi hSi ((im_cv a).trans h)
    simp only [complexOps]
    rw [cv_sub]
    refine (norm_cv_le _).trans ?_
    linarith
  oStep q x y _ h := by
    simp only [complexOps] at h ⊢
    rw [cv_mul_star, cv_sub] at h
    have h1 := cast_near hWi hSi ((re_cv _).trans h)
    have h2 := cast_near hWi hSi ((im_cv _).trans h)
    rw [cv_mul_star, cv_sub, cv_sub]
    refine (norm_cv_le _).trans ?_
    linarith
  off p q hp h0 h1 hq := by
    have h0 : lo ≤ p := by exact_mod_cast h0
    have h1 : p ≤ hi := by exact_mod_cast h1
    have q1 : |q.1| ≤ σ := Rat.cast_le.1 ((re_cv q).trans hq)
    have q2 : |q.2| ≤ σ := Rat.cast_le.1 ((im_cv q).trans hq)
    have hl := hf.low p hp h0 h1
    have hh := hf.high p hp h0 h1
    have hi' := hf.inv p hp h0 h1
    have hs := hf.stored p hp h0 h1
    have rng : ∀ z, |z| ≤ σ → |f.recip p * z| ≤ t.out.maxVal := by
      intro z hz
      rw [abs_mul, mul_comm]
      exact (mul_le_mul hz (hf.bnd p hp h0 h1) (abs_nonneg _) ((abs_nonneg _).trans hz)).trans hσ
    have n1 : |t.out.cvt (f.recip p * q.1) - f.recip p * q.1| ≤ 2 ^ (-t.out.F) := cvt_near hWo hSo (rng _ q1)
    have n2 : |t.out.cvt (f.recip p * q.2) - f.recip p * q.2| ≤ 2 ^ (-t.out.F) := cvt_near hWo hSo (rng _ q2)
    simp only [complexOps]
    rw [hs]
    generalize t.out.cvt (f.recip p * q.1) = y1 at *
    generalize t.out.cvt (f.recip p * q.2) = y2 at *
    generalize f.diag p = d at *
    generalize f.recip p = r at *
    have e : cv (y1, y2) * cv (d, 0) - cv q = cv (y1 - r * q.1, y2 - r * q.2) * rv d + cv q * rv (r * d - 1) := by
      apply Complex.ext <;> simp [cv, rv] <;> ring
    rw [e]
    have a1 : ‖cv (y1 - r * q.1, y2 - r * q.2) * rv d‖ ≤ ((B * (2 * 2 ^ (-t.out.F)) : ℚ) : ℝ) := by
      rw [norm_mul, norm_rv, abs_of_nonneg (show 0 ≤ d by linarith)]
      have b1 : ‖cv (y1 - r * q.1, y2 - r * q.2)‖ ≤ ((2 * 2 ^ (-t.out.F) : ℚ) : ℝ) := by
        refine (norm_cv_le _).trans ?_
        have c1 : ((|y1 - r * q.1| : ℚ) : ℝ) ≤ ((2 ^ (-t.out.F) : ℚ) : ℝ) := Rat.cast_le.2 n1
        have c2 : ((|y2 - r * q.2| : ℚ) : ℝ) ≤ ((2 ^ (-t.out.F) : ℚ) : ℝ) := Rat.cast_le.2 n2
        rw [Rat.cast_mul]
        push_cast at c1 c2 ⊢
        linarith
      have b2 : ((d : ℚ) : ℝ) ≤ (B : ℝ) := Rat.cast_le.2 hh
      have b3 : (0 : ℝ) ≤ (d : ℝ) := by exact_mod_cast (show 0 ≤ d by linarith)
      have := mul_le_mul b1 b2 b3 ((norm_nonneg _).trans b1)
      rw [Rat.cast_mul, mul_comm]
      rw [mul_comm] at this
      linarith
    have a2 : ‖cv q * rv (r * d - 1)‖ ≤ ((σ * er : ℚ) : ℝ) := by
      rw [norm_mul, norm_rv, Rat.cast_mul]
      exact mul_le_mul hq (Rat.cast_le.2 hi') (by exact_mod_cast abs_nonneg _) ((norm_nonneg _).trans hq)
    have := norm_add_le (cv (y1 - r * q.1, y2 - r * q.2) * rv d) (cv q * rv (r * d - 1))
    rw [Rat.cast_add]
    linarith
  zero := by simp [complexOps, cv]; rfl

end Proof.CholFns
