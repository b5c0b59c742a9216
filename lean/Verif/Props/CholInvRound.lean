import Verif.Proof.CholInvFns
import Verif.Props.CholAny

/-! # C74: rounding errors of ac_cholinv -/

namespace Props.CholInvRound
open Ac Model.CholInv Finset Spec.CholArith Proof.CholInvFns

variable {α τ σd σ ρ ω : Type}

/-- **C74**, any arithmetic.  The decomposition and the inversion are accurate in the sense of the two `Accurate`s; the
matrix is Hermitian, with elements up to `D` and smallest eigenvalue `lam`; `e` bounds the residual of the decomposition,
`g` the inverse of the factor, `R` its rows, `f` the residual of the inverted factor and `ν` its columns.  Then each element
of the result is within the bound of that of the inverse `Z` of the matrix. -/
theorem C74_any [Nonempty σd] {c : Model.Chol.Ops α τ σd σ ρ} {o : Ops τ ω} {va : α → ℂ} {vt : τ → ℂ} {vd : σd → ℝ}
    {vs : σ → ℂ} {okd : σd → Prop} {vo : ω → ℂ} {ok : τ → Prop} {M : ℕ}
    {X u D lam κ B ed eo e X' Xo u' uo θ g R f ν : ℝ} (A : Mem α) (L : Mem τ) (V : Mem ω) (Z : ℕ → ℕ → ℂ)
    (hc : Spec.CholArith.Accurate c va vt vd vs okd X u (lam - e * M - M * u) (D + M * u) (2 * D + M * u) κ B ed eo)
    (ho : Spec.CholInvArith.Accurate o vt vo ok X' Xo u' uo κ B θ)
    (hok : ∀ p, ok (c.diag p)) (hok0 : ok c.zero)
    (hsym : ∀ i < M, ∀ j < M, va (A i j) = star (va (A j i))) (hD : ∀ i < M, ∀ j < M, ‖va (A i j)‖ ≤ D)
    (hpd : ∀ x : ℕ → ℂ, lam * ∑ i ∈ range M, ‖x i‖ ^ 2 ≤
      (∑ i ∈ range M, ∑ j ∈ range M, star (x i) * va (A i j) * x j).re)
    (hZ : ∀ i < M, ∀ j < M, ∑ k ∈ range M, va (A i k) * Z k j = if i = j then 1 else 0)
    (hu : 0 ≤ u) (hX : 2 * D + M * u ≤ X) (hκ : 0 < κ) (he : 0 ≤ e) (hed : M * u + ed ≤ e) (heo : M * u + eo ≤ e)
    (hlam : e * M + M * u < lam) (hu' : 0 ≤ u') (hg : 0 ≤ g) (hg' : 1 ≤ g ^ 2 * (lam - e * M)) (hR : 0 ≤ R) (hR' : D + e ≤ R ^ 2)
    (hθ : 0 ≤ θ) (hf : (M + 1) * u' + θ * (R * ν + (M + 1) * u') + B * u' ≤ f) (hf' : θ ≤ f) (hν : g * (1 + M * f) ≤ ν)
    (hX1 : R * ν + (M + 1) * u' ≤ X') (hX2 : ν ≤ X') (hX3 : ν * ν + M * u' ≤ X') (hXo : ν * ν + (M + 1) * u' ≤ Xo) :
    ∃ W, cholinv c o M A L V = some W ∧ (∀ i < M, ∀ j < M, ‖vo (W i j) - Z i j‖ ≤
        uo + (M + 1) * u' + g ^ 2 * (2 * (M * f) + (M * f) ^ 2) + g ^ 2 * (M * e / lam)) ∧
      ∀ i j, ¬ (i < M ∧ j < M) → W i j = V i j := by
  obtain ⟨F, h1, h2, h3, h4⟩ := CholAny.C72_any A L hc hsym hD hpd hu hX hκ he hed heo hlam
  have hl : 0 < lam := by
    have : 0 ≤ e * M := mul_nonneg he (Nat.cast_nonneg _)
    have : 0 ≤ M * u := mul_nonneg (Nat.cast_nonneg _) hu
    linarith
  have hF := Proof.CholInvAny.factor (A := fun i j => va (A i j)) (L := fun i j => vt (F i j)) (D := D) (R := R)
    (fun a ha k hk hak => by rw [h2 a ha k hk hak]; exact hc.zero) h3 hκ hg hR h4 (fun i hi => hD i hi i hi) hpd hg' hR'
  have := Proof.CholInvAny.run (A := fun i j => va (A i j)) ho hu' hF (diag_ok hok hok0 h1) hθ hf hf' hν hX1 hX2 hX3 hXo hl he h4 hpd hZ V
  unfold cholinv
  rw [h1, Option.bind_some]
  exact this

/-- Signed types in which the reciprocals, the sums and the results fit.  `c` is the number of parts of an element (2 for
complex ones), `e` the bound on the residual of the decomposition, `D` bounds the elements of the matrix, `lam` is its
smallest eigenvalue, the diagonal of the factor lies from `κ` to `B`.  `g` is to bound the inverse of the factor, `R` its
rows, `f` the residual and `ν` the columns of the inverted factor. -/
structure Fits (c : ℚ) (pwl : Bool) (t out : Fmt) (M : ℕ) (D lam e κ B g R f ν : ℚ) : Prop where
  recip : RecOk pwl t κ
  outW : 1 ≤ out.W
  outS : out.S = true
  g0 : 0 ≤ g
  inv : 1 ≤ g ^ 2 * (lam - e * M)
  R0 : 0 ≤ R
  row : D + e ≤ R ^ 2
  res : (M + 1) * (c * 2 ^ (-t.F)) + theta pwl t B * (R * ν + (M + 1) * (c * 2 ^ (-t.F))) + B * (c * 2 ^ (-t.F)) ≤ f
  rel : theta pwl t B ≤ f
  col : g * (1 + M * f) ≤ ν
  sums : R * ν + (M + 1) * (c * 2 ^ (-t.F)) ≤ t.maxVal
  elem : ν ≤ t.maxVal
  prod : ν * ν + (M + 1) * (c * 2 ^ (-t.F)) ≤ t.maxVal
  result : ν * ν + (M + 1) * (c * 2 ^ (-t.F)) ≤ out.maxVal

/-- The bound on the error of an element of the inverse. -/
def invBound (c : ℚ) (t out : Fmt) (M : ℕ) (lam e g f : ℚ) : ℚ :=
  c * 2 ^ (-out.F) + (M + 1) * (c * 2 ^ (-t.F)) + g ^ 2 * (2 * (M * f) + (M * f) ^ 2) + g ^ 2 * (M * e / lam)

theorem pd_complex {M : ℕ} {A : Mem ℚ} {lam : ℚ}
    (hpd : ∀ x : ℕ → ℝ, lam * ∑ i ∈ range M, x i ^ 2 ≤ ∑ i ∈ range M, ∑ j ∈ range M, x i * A i j * x j) (x : ℕ → ℂ) :
    (lam : ℝ) * ∑ i ∈ range M, ‖x i‖ ^ 2 ≤ (∑ i ∈ range M, ∑ j ∈ range M, star (x i) * Proof.CholFns.rv (A i j) * x j).re := by
  have h1 := hpd fun i => (x i).re
  have h2 := hpd fun i => (x i).im
  have e1 : ∑ i ∈ range M, ‖x i‖ ^ 2 = ∑ i ∈ range M, (x i).re ^ 2 + ∑ i ∈ range M, (x i).im ^ 2 := by
    rw [← sum_add_distrib]
    refine sum_congr rfl fun i _ => ?_
    rw [← Complex.normSq_eq_norm_sq, Complex.normSq_apply]; ring
  have e2 : (∑ i ∈ range M, ∑ j ∈ range M, star (x i) * Proof.CholFns.rv (A i j) * x j).re =
      ∑ i ∈ range M, ∑ j ∈ range M, (x i).re * A i j * (x j).re +
      ∑ i ∈ range M, ∑ j ∈ range M, (x i).im * A i j * (x j).im := by
    rw [Complex.re_sum, ← sum_add_distrib]
    refine sum_congr rfl fun i _ => ?_
    rw [Complex.re_sum, ← sum_add_distrib]
    refine sum_congr rfl fun j _ => ?_
    simp [Proof.CholFns.rv]
  rw [e1, e2, mul_add]
  linarith

/-- The last steps of both versions, after the decomposition. -/
theorem finish {o : Ops τ ω} {vt : τ → ℂ} {vo : ω → ℂ} {ok : τ → Prop} {c : ℚ} (hc : 0 ≤ c) {pwl : Bool} {t out : Fmt} {M : ℕ}
    {D lam e κ B g R f ν : ℚ} (hs : Fits c pwl t out M D lam e κ B g R f ν)
    (ho : Spec.CholInvArith.Accurate o vt vo ok t.maxVal out.maxVal ((c * 2 ^ (-t.F) : ℚ) : ℝ) ((c * 2 ^ (-out.F) : ℚ) : ℝ) κ B
      (theta pwl t B : ℚ)) (hB : 0 ≤ B) {A Z : ℕ → ℕ → ℂ} {L : Mem τ} (V : Mem ω)
    (tri : ∀ a < M, ∀ k < M, a < k → vt (L a k) = 0) (diag : ∀ a < M, ∃ d : ℝ, vt (L a a) = d ∧ κ ≤ d ∧ d ≤ B)
    (hok : ∀ a < M, ok (L a a)) (hl : 0 < lam) (he : 0 ≤ e)
    (hA : ∀ i < M, ∀ j < M, ‖A i j - ∑ k ∈ range M, vt (L i k) * star (vt (L j k))‖ ≤ (e : ℝ)) (hD : ∀ i < M, ‖A i i‖ ≤ (D : ℝ))
    (hpd : ∀ x : ℕ → ℂ, lam * ∑ i ∈ range M, ‖x i‖ ^ 2 ≤ (∑ i ∈ range M, ∑ j ∈ range M, star (x i) * A i j * x j).re)
    (hZ : ∀ i < M, ∀ j < M, ∑ k ∈ range M, A i k * Z k j = if i = j then 1 else 0) :
    ∃ W, ((columns o M L).bind fun N => product o M N V) = some W ∧
      (∀ i < M, ∀ j < M, ‖vo (W i j) - Z i j‖ ≤ (invBound c t out M lam e g f : ℚ)) ∧
      ∀ i j, ¬ (i < M ∧ j < M) → W i j = V i j := by
  have hu : 0 ≤ c * (2 : ℚ) ^ (-t.F) := mul_nonneg hc (Fmt.z_pos _).le
  have hth : 0 ≤ theta pwl t B := by
    unfold theta
    have : 0 ≤ B * (2 : ℚ) ^ (-t.F) := mul_nonneg hB (Fmt.z_pos _).le
    split_ifs <;> linarith
  have ib : ((invBound c t out M lam e g f : ℚ) : ℝ) = ((c * 2 ^ (-out.F) : ℚ) : ℝ) + (M + 1) * ((c * 2 ^ (-t.F) : ℚ) : ℝ) +
      (g : ℝ) ^ 2 * (2 * (M * f) + (M * f) ^ 2) + (g : ℝ) ^ 2 * (M * e / lam) := by
    unfold invBound; push_cast; rfl
  obtain ⟨r1, -, -, r4, r5, r6, r7, r8, r9, r10, r11, r12, r13, r14⟩ := hs
  have hκ := r1.pos
  generalize c * (2 : ℚ) ^ (-t.F) = u at *
  generalize c * (2 : ℚ) ^ (-out.F) = uo at *
  generalize theta pwl t B = θ at *
  have hF := Proof.CholInvAny.factor (A := A) (L := fun i j => vt (L i j)) (D := (D : ℝ)) (R := (R : ℝ)) (g := (g : ℝ)) tri diag
    (by exact_mod_cast hκ) (by exact_mod_cast r4) (by exact_mod_cast r6) hA hD hpd (by exact_mod_cast r5) (by exact_mod_cast r7)
  rw [ib]
  have h13 : ν * ν + M * u ≤ t.maxVal := by
    have : ((M : ℚ) + 1) * u = M * u + u := by ring
    linarith
  exact Proof.CholInvAny.run ho (by exact_mod_cast hu) hF hok (by exact_mod_cast hth) (f := (f : ℝ)) (ν := (ν : ℝ)) (by exact_mod_cast r8)
    (by exact_mod_cast r9) (by exact_mod_cast r10) (by exact_mod_cast r11) (by exact_mod_cast r12) (by exact_mod_cast h13)
    (by exact_mod_cast r14) (by exact_mod_cast hl) (by exact_mod_cast he) hA hpd hZ V

theorem facts {c : ℚ} (hc : 1 ≤ c) {pwl : Bool} {ty : Model.Chol.Types} {M : ℕ} {D lam κ B : ℚ} (hd : CholAny.Fits c pwl ty M D lam κ B)
    (hD : 0 ≤ D) : 0 ≤ B ∧ 0 ≤ CholAny.resBound c pwl ty M D κ B ∧ 0 < lam := by
  obtain ⟨b1, b2, b3⟩ := CholAny.bound_parts hc hd hD
  have hr : 0 ≤ CholAny.resBound c pwl ty M D κ B := by
    unfold CholAny.resBound
    linarith
  have hB : 0 ≤ B := (Fmt.z_pos (-ty.out.F)).le.trans hd.low
  have hv2 : 0 < (κ + 2 ^ (-ty.out.F)) ^ 2 := pow_pos (by have := hd.pos; have := Fmt.z_pos (-ty.out.F); linarith) 2
  have e2 : 0 < (if pwl then 440 / 439 else 1) * (κ + 2 ^ (-ty.out.F)) ^ 2 := mul_pos (by split_ifs <;> norm_num) hv2
  have e3 := hd.eig
  have e4 : 0 ≤ (M : ℚ) * (CholAny.resBound c pwl ty M D κ B + c * 2 ^ (-ty.imd.F)) := by
    rw [mul_add]
    have := mul_nonneg (Nat.cast_nonneg (α := ℚ) M) hr
    linarith
  exact ⟨hB, hr, by linarith⟩

/-- **C74**, ac_fixed elements, for all four choices of `use_pwl1` and `use_pwl2`, every type, rounding mode and overflow
mode: the inverse of a symmetric matrix that is positive definite by more than the errors is computed within the bound.  `L`
is the content of the array for the factor, `V` that of the result before the call. -/
theorem C74_real {pwl1 pwl2 : Bool} {ty : Model.Chol.Types} {out : Fmt} (junk junk' : ℚ) {M : ℕ} {D lam κ B g R f ν : ℚ}
    (hd : CholAny.Fits 1 pwl1 ty M D lam κ B)
    (hs : Fits 1 pwl2 ty.out out M D lam (CholAny.resBound 1 pwl1 ty M D κ B) κ B g R f ν) (A L V Z : Mem ℚ)
    (hsym : ∀ i < M, ∀ j < M, A i j = A j i) (hD : ∀ i < M, ∀ j < M, |A i j| ≤ D)
    (hpd : ∀ x : ℕ → ℝ, lam * ∑ i ∈ range M, x i ^ 2 ≤ ∑ i ∈ range M, ∑ j ∈ range M, x i * A i j * x j)
    (hZ : ∀ i < M, ∀ j < M, ∑ k ∈ range M, A i k * Z k j = if i = j then 1 else 0) :
    ∃ W, cholinv (Model.Chol.realOps ty (Model.Chol.fns pwl1 ty junk)) (realOps pwl2 out ty.out junk') M A L V = some W ∧
      (∀ i < M, ∀ j < M, |W i j - Z i j| ≤ invBound 1 ty.out out M lam (CholAny.resBound 1 pwl1 ty M D κ B) g f) ∧
      ∀ i j, ¬ (i < M ∧ j < M) → W i j = V i j := by
  obtain ⟨F, h1, h2, h3, h4⟩ := CholAny.C72_real junk hd A L hsym hD hpd
  unfold cholinv
  rw [h1, Option.bind_some]
  rcases Nat.eq_zero_or_pos M with rfl | hM
  · exact ⟨V, rfl, fun i hi => absurd hi (by omega), fun i j _ => rfl⟩
  obtain ⟨hB, he, hl⟩ := facts le_rfl hd ((abs_nonneg _).trans (hD 0 hM 0 hM))
  have hok : ∀ i < M, ty.out.Rep (F i i) := diag_ok (fun p => Fmt.rep_cvt hd.outW _) (by
    have := Fmt.rep_cvt (f := ty.out) hd.outW (0 : ℚ)
    rwa [Fmt.cvt_zero' hd.outW] at this) h1
  generalize CholAny.resBound 1 pwl1 ty M D κ B = e at *
  have hacc := real_acc (out := out) (B := B) hs.recip hs.outW hs.outS junk'
  obtain ⟨W, w1, w2, w3⟩ := finish (A := fun i j => Proof.CholFns.rv (A i j)) (Z := fun i j => Proof.CholFns.rv (Z i j)) zero_le_one hs
    (by rw [one_mul, one_mul, Proof.CholFns.u_cast, Proof.CholFns.u_cast]; exact hacc) hB V
    (fun a ha k hk hak => by rw [h2 a ha k hk hak]; simp [Proof.CholFns.rv])
    (fun a ha => ⟨(F a a : ℝ), rfl, Rat.cast_le.2 (h3 a ha).1, Rat.cast_le.2 (h3 a ha).2⟩) hok hl he
    (fun i hi j hj => by
      have := h4 i hi j hj
      simp only [Proof.CholFns.star_rv, Proof.CholFns.rv_mul]
      have e1 : ∑ k ∈ range M, Proof.CholFns.rv (F i k * F j k) = Proof.CholFns.rv (∑ k ∈ range M, F i k * F j k) := by
        unfold Proof.CholFns.rv; push_cast; rfl
      rw [e1, Proof.CholFns.rv_sub, Proof.CholFns.norm_rv]
      exact Rat.cast_le.2 this)
    (fun i hi => by rw [Proof.CholFns.norm_rv]; exact Rat.cast_le.2 (hD i hi i hi)) (pd_complex hpd)
    (fun i hi j hj => by
      simp only [Proof.CholFns.rv_mul]
      have e1 : ∑ k ∈ range M, Proof.CholFns.rv (A i k * Z k j) = Proof.CholFns.rv (∑ k ∈ range M, A i k * Z k j) := by
        unfold Proof.CholFns.rv; push_cast; rfl
      rw [e1, hZ i hi j hj]
      split_ifs <;> simp [Proof.CholFns.rv])
  refine ⟨W, w1, fun i hi j hj => ?_, w3⟩
  have := w2 i hi j hj
  rw [Proof.CholFns.rv_sub, Proof.CholFns.norm_rv] at this
  exact Rat.cast_le.1 this

/-- **C74**, ac_complex<ac_fixed> elements, for all four choices of `use_pwl1` and `use_pwl2`: the same for Hermitian
matrices.  `fm` is the type of `mag_sqr`; with `use_pwl2` it has to hold the squares of the diagonal elements. -/
theorem C74_complex {pwl1 pwl2 : Bool} {ty : Model.Chol.Types} {out fm : Fmt} (junk junk' : ℚ) {M : ℕ} {D lam κ B g R f ν : ℚ}
    (hd : CholAny.Fits 2 pwl1 ty M D lam κ B)
    (hs : Fits 2 pwl2 ty.out out M D lam (CholAny.resBound 2 pwl1 ty M D κ B) κ B g R f ν)
    (hfm : pwl2 = true → ComplexRec.Holds ty.out fm B 0) (A L V : Mem (ℚ × ℚ)) (Z : ℕ → ℕ → ℂ)
    (hsym : ∀ i < M, ∀ j < M, A i j = ((A j i).1, -(A j i).2)) (hD : ∀ i < M, ∀ j < M, ‖cv (A i j)‖ ≤ D)
    (hpd : ∀ x : ℕ → ℂ, lam * ∑ i ∈ range M, ‖x i‖ ^ 2 ≤ (∑ i ∈ range M, ∑ j ∈ range M, star (x i) * cv (A i j) * x j).re)
    (hZ : ∀ i < M, ∀ j < M, ∑ k ∈ range M, cv (A i k) * Z k j = if i = j then 1 else 0) :
    ∃ W, cholinv (Model.Chol.complexOps ty (Model.Chol.fns pwl1 ty junk)) (complexOps pwl2 out ty.out fm junk') M A L V = some W ∧
      (∀ i < M, ∀ j < M, ‖cv (W i j) - Z i j‖ ≤
        (invBound 2 ty.out out M lam (CholAny.resBound 2 pwl1 ty M D κ B) g f : ℚ)) ∧
      ∀ i j, ¬ (i < M ∧ j < M) → W i j = V i j := by
  obtain ⟨F, h1, h2, h3, h4⟩ := CholAny.C72_complex junk hd A L hsym hD hpd
  unfold cholinv
  rw [h1, Option.bind_some]
  rcases Nat.eq_zero_or_pos M with rfl | hM
  · exact ⟨V, rfl, fun i hi => absurd hi (by omega), fun i j _ => rfl⟩
  have hD0 : 0 ≤ D := by
    have := (norm_nonneg _).trans (hD 0 hM 0 hM)
    exact_mod_cast this
  obtain ⟨hB, he, hl⟩ := facts (by norm_num) hd hD0
  have hok : ∀ i < M, ty.out.Rep (F i i).1 := diag_ok (ok := fun x : ℚ × ℚ => ty.out.Rep x.1) (fun p => Fmt.rep_cvt hd.outW _) (by
    have := Fmt.rep_cvt (f := ty.out) hd.outW (0 : ℚ)
    rwa [Fmt.cvt_zero' hd.outW] at this) h1
  generalize CholAny.resBound 2 pwl1 ty M D κ B = e at *
  have hacc := complex_acc (out := out) (B := B) hs.recip hfm hs.outW hs.outS junk'
  have u2 : ∀ n : ℤ, ((2 * (2 : ℚ) ^ n : ℚ) : ℝ) = 2 * 2 ^ n := fun n => by push_cast; rfl
  exact finish (A := fun i j => cv (A i j)) (by norm_num) hs (by rw [u2, u2]; exact hacc) hB V
    (fun a ha k hk hak => by rw [h2 a ha k hk hak]; exact cv_zero)
    (fun a ha => by
      obtain ⟨k1, k2, k3⟩ := h3 a ha
      refine ⟨((F a a).1 : ℝ), ?_, Rat.cast_le.2 k1, Rat.cast_le.2 k2⟩
      apply Complex.ext <;> simp [cv, k3])
    hok hl he h4 (fun i hi => hD i hi i hi) hpd hZ

/-- `ac_fixed<32,16,true,AC_RND,AC_SAT>`, for the examples. -/
def t32 : Fmt := ⟨32, 16, true, .RND, .SAT⟩

/-- The types of the decomposition, with the default template arguments. -/
def ty32 : Model.Chol.Types := ⟨⟨16, 8, true, .TRN, .WRAP⟩, t32, Model.Chol.imdFmt t32 0 0 .RND .SAT⟩

theorem dec32 {c : ℚ} (hc : c = 1 ∨ c = 2) (pwl : Bool) : CholAny.Fits c pwl ty32 2 2 (3 / 2) 1 (29 / 20) where
  outW := by decide
  imdW := by decide
  outS := rfl
  imdS := rfl
  bits := by decide
  sums := by rcases hc with rfl | rfl <;> decide +kernel
  low := by decide +kernel
  high := by decide +kernel
  root := by rw [pow_two]; rcases hc with rfl | rfl <;> cases pwl <;> decide +kernel
  pos := by norm_num
  recip := by decide +kernel
  quot := by rcases hc with rfl | rfl <;> decide +kernel
  eig := by rw [pow_two]; rcases hc with rfl | rfl <;> cases pwl <;> decide +kernel

theorem fits32 {c : ℚ} (hc : c = 1 ∨ c = 2) (pwl1 pwl2 : Bool) : Fits c pwl2 t32 t32 2 2 (3 / 2) (CholAny.resBound c pwl1 ty32 2 2 1 (29 / 20))
    1 (29 / 20) (83 / 100) (142 / 100) (4 / 1000) (84 / 100) where
  recip := ⟨by decide, rfl, fun _ => by decide, by norm_num, by cases pwl2 <;> decide +kernel⟩
  outW := by decide
  outS := rfl
  g0 := by norm_num
  inv := by rw [pow_two]; rcases hc with rfl | rfl <;> cases pwl1 <;> decide +kernel
  R0 := by norm_num
  row := by rw [pow_two]; rcases hc with rfl | rfl <;> cases pwl1 <;> decide +kernel
  res := by rcases hc with rfl | rfl <;> cases pwl2 <;> decide +kernel
  rel := by cases pwl2 <;> decide +kernel
  col := by norm_num
  sums := by rcases hc with rfl | rfl <;> decide +kernel
  elem := by decide +kernel
  prod := by rcases hc with rfl | rfl <;> decide +kernel
  result := by rcases hc with rfl | rfl <;> decide +kernel

/-- The bounds of the examples. -/
theorem bound32 {c : ℚ} (hc : c = 1 ∨ c = 2) (pwl1 : Bool) :
    invBound c t32 t32 2 (3 / 2) (CholAny.resBound c pwl1 ty32 2 2 1 (29 / 20)) (83 / 100) (4 / 1000) ≤ 1 / 40 := by
  unfold invBound
  rw [pow_two, pow_two]
  rcases hc with rfl | rfl <;> cases pwl1 <;> decide +kernel

/-- The inverse of [[2,1/2],[1/2,2]]. -/
def inv2 : Mem ℚ := fun i j => if i = j then 8 / 15 else -2 / 15

example (pwl1 pwl2 : Bool) : ∃ W, cholinv (Model.Chol.realOps ty32 (Model.Chol.fns pwl1 ty32 0)) (realOps pwl2 t32 t32 0) 2 CholAny.mat2
      (fun _ _ => 7) (fun _ _ => 9) = some W ∧ (∀ i < 2, ∀ j < 2, |W i j - inv2 i j| ≤ 1 / 40) ∧ W 2 0 = 9 := by
  obtain ⟨W, h1, h2, h3⟩ := C74_real 0 0 (dec32 (Or.inl rfl) pwl1) (fits32 (Or.inl rfl) pwl1 pwl2) CholAny.mat2 (fun _ _ => 7) (fun _ _ => 9) inv2
    (fun i hi j hj => by
      rcases CholAny.lt_two hi with rfl | rfl <;> rcases CholAny.lt_two hj with rfl | rfl <;> decide +kernel)
    (fun i hi j hj => by
      rcases CholAny.lt_two hi with rfl | rfl <;> rcases CholAny.lt_two hj with rfl | rfl <;> decide +kernel)
    (fun x => by
      simp only [sum_range_succ, range_zero, sum_empty, CholAny.mat2]
      norm_num
      nlinarith [sq_nonneg (x 0 + x 1)])
    (fun i hi j hj => by
      rcases CholAny.lt_two hi with rfl | rfl <;> rcases CholAny.lt_two hj with rfl | rfl <;> decide +kernel)
  exact ⟨W, h1, fun i hi j hj => (h2 i hi j hj).trans (bound32 (Or.inl rfl) pwl1), h3 2 0 (by omega)⟩

/-- The type of `mag_sqr` for the example. -/
def fm32 : Fmt := ⟨63, 31, false, .TRN, .WRAP⟩

/-- The inverse of [[2,i/2],[-i/2,2]]. -/
def invc : Mem (ℚ × ℚ) := fun i j => if i = j then (8 / 15, 0) else if i < j then (0, -2 / 15) else (0, 2 / 15)

example (pwl1 pwl2 : Bool) : ∃ W, cholinv (Model.Chol.complexOps ty32 (Model.Chol.fns pwl1 ty32 0)) (complexOps pwl2 t32 t32 fm32 0) 2
      CholAny.matc (fun _ _ => (7, 7)) (fun _ _ => (9, 9)) = some W ∧ ∀ i < 2, ∀ j < 2, ‖cv (W i j) - cv (invc i j)‖ ≤ 1 / 40 := by
  obtain ⟨W, h1, h2, -⟩ := C74_complex (fm := fm32) 0 0 (dec32 (Or.inr rfl) pwl1) (fits32 (Or.inr rfl) pwl1 pwl2)
    (fun _ => ⟨by decide, rfl, by decide, by decide, by norm_num [fm32]⟩) CholAny.matc (fun _ _ => (7, 7)) (fun _ _ => (9, 9))
    (fun i j => cv (invc i j))
    (fun i hi j hj => by
      rcases CholAny.lt_two hi with rfl | rfl <;> rcases CholAny.lt_two hj with rfl | rfl <;> decide +kernel)
    (fun i hi j hj => by
      refine (Proof.CholFns.norm_cv_le _).trans ?_
      have : |(CholAny.matc i j).1| + |(CholAny.matc i j).2| ≤ 2 := by
        rcases CholAny.lt_two hi with rfl | rfl <;> rcases CholAny.lt_two hj with rfl | rfl <;> decide +kernel
      exact_mod_cast this)
    (fun x => by
      simp only [sum_range_succ, range_zero, sum_empty, CholAny.matc, cv]
      simp only [← Complex.normSq_eq_norm_sq, Complex.normSq_apply]
      simp
      nlinarith [sq_nonneg ((x 0).re - (x 1).im), sq_nonneg ((x 0).im + (x 1).re)])
    (fun i hi j hj => by
      rcases CholAny.lt_two hi with rfl | rfl <;> rcases CholAny.lt_two hj with rfl | rfl <;>
        (apply Complex.ext <;> simp [sum_range_succ, CholAny.matc, invc, cv] <;> norm_num))
  refine ⟨W, h1, fun i hi j hj => (h2 i hi j hj).trans ?_⟩
  have := (Rat.cast_le (K := ℝ)).2 (bound32 (c := 2) (Or.inr rfl) pwl1)
  push_cast at this ⊢
  exact this

/-- The hypothesis of `C74_any` on the inversion holds of the ac_fixed arithmetic with the PWL reciprocal. -/
example : Spec.CholInvArith.Accurate (complexOps true t32 t32 fm32 0) cv cv (fun x => t32.Rep x.1) t32.maxVal t32.maxVal (2 * 2 ^ (-t32.F))
    (2 * 2 ^ (-t32.F)) (1 : ℚ) (29 / 20 : ℚ) (theta true t32 (29 / 20) : ℚ) :=
  complex_acc (fits32 (c := 2) (Or.inr rfl) true true).recip (fun _ => ⟨by decide, rfl, by decide, by decide, by norm_num [fm32]⟩)
    (by decide) rfl 0

/-- The factor is stored in a type as wide as that of the inverse.  With the default template arguments a matrix whose
inverse fits that type is inverted wrongly if its factor does not: 1/64 is the inverse of 64, 1/2 is returned. -/
theorem C74_large_wrong :
    let out : Fmt := ⟨16, 2, true, .RND, .SAT⟩
    let ty : Model.Chol.Types := ⟨⟨16, 8, true, .TRN, .WRAP⟩, out, Model.Chol.imdFmt out 0 0 .RND .SAT⟩
    ty.fin.Rep 64 ∧ out.Rep (1 / 64) ∧
    (cholinv (Model.Chol.realOps ty (Model.Chol.fns false ty 0)) (realOps false out (tFmt out 0 0 .RND .SAT) 0) 1 (fun _ _ => 64)
      (fun _ _ => 0) (fun _ _ => 0)).map (fun W => W 0 0) = some (1 / 2) := by
  refine ⟨⟨16384, by decide, by decide, by norm_num [Fmt.val, Fmt.F]⟩, ⟨256, by decide, by decide, by norm_num [Fmt.val, Fmt.F]⟩, ?_⟩
  decide +kernel

/-- The same for a small element, which the type of the inverse rounds to zero: 4096 is the inverse of 1/4096, the largest
value of the type is returned, close to twice that. -/
theorem C74_small_wrong :
    let out : Fmt := ⟨24, 14, true, .RND, .SAT⟩
    let ty : Model.Chol.Types := ⟨⟨24, 4, true, .TRN, .WRAP⟩, out, Model.Chol.imdFmt out 0 0 .RND .SAT⟩
    ty.fin.Rep (1 / 4096) ∧ out.Rep 4096 ∧
    (cholinv (Model.Chol.realOps ty (Model.Chol.fns false ty 0)) (realOps false out (tFmt out 0 0 .RND .SAT) 0) 1 (fun _ _ => 1 / 4096)
      (fun _ _ => 0) (fun _ _ => 0)).map (fun W => W 0 0) = some (8388607 / 1024) := by
  refine ⟨⟨256, by decide, by decide, by norm_num [Fmt.val, Fmt.F]⟩, ⟨4194304, by decide, by decide, by norm_num [Fmt.val, Fmt.F]⟩, ?_⟩
  decide +kernel

end Props.CholInvRound
