import Verif.Proof.CholFns
import Mathlib.Tactic.NormNum

/-! # C72: errors of the Cholesky decomposition with complex elements and with the PWL functions -/

namespace Props.CholAny
open Ac Model.Chol Finset Spec.CholArith

variable {α τ σd σ ρ : Type}

/-- `L*Lᴴ` from the elements on and below the diagonal. -/
theorem low_sum {M : ℕ} {R F : ℕ → ℕ → ℂ} (h : ∀ i < M, ∀ j < M, R i j = if j ≤ i then F i j else 0) {i j : ℕ} (hi : i < M)
    (hji : j ≤ i) : ∑ k ∈ range M, R i k * star (R j k) = ∑ k ∈ range (j + 1), F i k * star (F j k) := by
  rw [← sum_subset (range_subset_range.2 (show j + 1 ≤ M by omega))]
  · refine sum_congr rfl fun k hk => ?_
    have := mem_range.1 hk
    rw [h i hi k (by omega), h j (by omega) k (by omega), if_pos (by omega), if_pos (by omega)]
  · intro k hk hk'
    have h1 := mem_range.1 hk
    have h2 : ¬ k < j + 1 := fun h => hk' (mem_range.2 h)
    rw [h j (by omega) k h1, if_neg (by omega), star_zero, mul_zero]

/-- **C72**, any arithmetic.  If each operation on elements is accurate in the sense of `Accurate`, a Hermitian matrix with
elements up to `D` whose smallest eigenvalue `lam` exceeds `M` times the bound `e` is factored: the output is lower
triangular with real diagonal from `κ` to `B`, and no element of `A - L*Lᴴ` exceeds `e`. -/
theorem C72_any [Nonempty σd] {o : Ops α τ σd σ ρ} {va : α → ℂ} {vt : τ → ℂ} {vd : σd → ℝ} {vs : σ → ℂ} {ok : σd → Prop}
    {M : ℕ} {X u D lam κ B ed eo e : ℝ} (A : Mem α) (L : Mem τ)
    (ha : Accurate o va vt vd vs ok X u (lam - e * M - M * u) (D + M * u) (2 * D + M * u) κ B ed eo)
    (hsym : ∀ i < M, ∀ j < M, va (A i j) = star (va (A j i))) (hD : ∀ i < M, ∀ j < M, ‖va (A i j)‖ ≤ D)
    (hpd : ∀ x : ℕ → ℂ, lam * ∑ i ∈ range M, ‖x i‖ ^ 2 ≤
      (∑ i ∈ range M, ∑ j ∈ range M, star (x i) * va (A i j) * x j).re)
    (hu : 0 ≤ u) (hX : 2 * D + M * u ≤ X) (hκ : 0 < κ) (he : 0 ≤ e) (hed : M * u + ed ≤ e) (heo : M * u + eo ≤ e)
    (hlam : e * M + M * u < lam) :
    ∃ R, chol o M A L = some R ∧ (∀ i < M, ∀ j < M, i < j → R i j = o.zero) ∧
      (∀ i < M, ∃ d : ℝ, vt (R i i) = d ∧ κ ≤ d ∧ d ≤ B) ∧
      ∀ i < M, ∀ j < M, ‖va (A i j) - ∑ k ∈ range M, vt (R i k) * star (vt (R j k))‖ ≤ e := by
  obtain ⟨R, F, p, h1, h2, h3⟩ := Proof.Chol.chol_eq o M A L (fun _ => Classical.arbitrary σd)
  obtain ⟨k1, k2⟩ := Proof.CholAny.apriori h2 ha hD hsym hpd hu hX hκ he hed heo hlam.le
  have hnp : ∀ k < M, o.nonPos (p k) = false := fun k hk => (ha.pos _).2 (by have := (k1 k hk).1; linarith)
  have hR : ∀ i < M, ∀ j < M, R i j = if j ≤ i then F i j else o.zero := by
    intro i hi j hj
    rw [h3, if_pos ⟨hi, hj⟩]
    by_cases hji : j ≤ i
    · rw [if_pos hji, if_neg]
      rintro (h' | h')
      · omega
      · exact h' hnp
    · rw [if_neg hji, if_pos (Or.inl (by omega))]
  have hRv : ∀ i < M, ∀ j < M, vt (R i j) = if j ≤ i then vt (F i j) else 0 := by
    intro i hi j hj
    rw [hR i hi j hj]
    split_ifs
    · rfl
    · exact ha.zero
  refine ⟨R, h1, fun i hi j hj hij => by rw [hR i hi j hj, if_neg (by omega)], fun i hi => ?_, fun i hi j hj => ?_⟩
  · rw [hR i hi i hi, if_pos le_rfl]; exact (k1 i hi).2.2
  · rcases le_total j i with hji | hij
    · rw [low_sum (R := fun i j => vt (R i j)) (F := fun i j => vt (F i j)) hRv hi hji]; exact k2 j hj i hi hji
    · rw [hsym i hi j hj]
      have : ∑ k ∈ range M, vt (R i k) * star (vt (R j k)) = star (∑ k ∈ range M, vt (R j k) * star (vt (R i k))) := by
        rw [star_sum]
        exact sum_congr rfl fun k _ => by rw [star_mul, star_star]
      rw [this, ← star_sub, norm_star, low_sum (R := fun i j => vt (R i j)) (F := fun i j => vt (F i j)) hRv hj hij]
      exact k2 i hi j hj hij

/-- The bound on the elements of `A - L*Lᴴ`: `c` is the number of parts of an element (2 for complex ones), `u` and `v` are
the resolutions of the intermediate and the output type, `D` bounds the elements of the matrix, `κ` and `B` those on the
diagonal of the factor.  The PWL square root contributes 1/440 of the largest pivot, both PWL functions together 1/500 of
the largest sum. -/
def resBound (c : ℚ) (pwl : Bool) (t : Types) (M : ℕ) (D κ B : ℚ) : ℚ :=
  let u := 2 ^ (-t.imd.F)
  let v := 2 ^ (-t.out.F)
  let n := M * (c * u)
  n + (2 * B * v + if pwl then (D + n) / 440 else 0) +
    (B * (c * v) + (2 * D + n) * (u * B + if pwl then v / κ + 1 / 500 else 0))

/-- Signed types of which the reciprocal of an output element can have a bit in the intermediate type, and in which the
sums, the diagonal elements from `κ` to `B`, their reciprocals and the quotients fit; the smallest eigenvalue `lam` exceeds
the rounding errors. -/
structure Fits (c : ℚ) (pwl : Bool) (t : Types) (M : ℕ) (D lam κ B : ℚ) : Prop where
  outW : 1 ≤ t.out.W
  imdW : 1 ≤ t.imd.W
  outS : t.out.S = true
  imdS : t.imd.S = true
  bits : 0 ≤ t.out.F + t.imd.F
  sums : 2 * D + M * (c * 2 ^ (-t.imd.F)) ≤ t.imd.maxVal
  low : 2 ^ (-t.out.F) ≤ B
  high : B ≤ t.out.maxVal
  root : (if pwl then 441 / 440 else 1) * (D + M * (c * 2 ^ (-t.imd.F))) ≤ (B - 2 ^ (-t.out.F)) ^ 2
  pos : 0 < κ
  recip : 1 ≤ κ * (unsignedFmt t.imd).maxVal
  quot : (2 * D + M * (c * 2 ^ (-t.imd.F))) * (1 / κ + 2 ^ (-t.imd.F)) ≤ t.out.maxVal
  eig : (if pwl then 440 / 439 else 1) * (κ + 2 ^ (-t.out.F)) ^ 2 + M * (resBound c pwl t M D κ B + c * 2 ^ (-t.imd.F)) ≤ lam

theorem fns_ok {c : ℚ} {pwl : Bool} {t : Types} {M : ℕ} {D lam κ B : ℚ} (ht : Fits c pwl t M D lam κ B) (junk : ℚ) :
    Proof.CholFns.FnOk t (fns pwl t junk) (lam - resBound c pwl t M D κ B * M - M * (c * 2 ^ (-t.imd.F)))
      (D + M * (c * 2 ^ (-t.imd.F))) κ B
      (2 * B * 2 ^ (-t.out.F) + if pwl then (D + M * (c * 2 ^ (-t.imd.F))) / 440 else 0)
      (2 ^ (-t.imd.F) * B + if pwl then 2 ^ (-t.out.F) / κ + 1 / 500 else 0) (1 / κ + 2 ^ (-t.imd.F)) := by
  have he := ht.eig
  have e : (M : ℚ) * (resBound c pwl t M D κ B + c * 2 ^ (-t.imd.F)) =
    resBound c pwl t M D κ B * M + M * (c * 2 ^ (-t.imd.F)) := by ring
  have hroot := ht.root
  cases pwl
  · simp only [Bool.false_eq_true, if_false, one_mul, add_zero] at he hroot ⊢
    exact Proof.CholFns.exact_ok ht.outW ht.imdW ht.outS ht.imdS ht.bits junk ht.low ht.high hroot ht.pos ht.recip (by linarith)
  · simp only [if_true] at he hroot ⊢
    have := Proof.CholFns.pwl_ok ht.outW ht.imdW ht.outS ht.imdS junk (lo := lam - resBound c true t M D κ B * M - M * (c * 2 ^ (-t.imd.F)))
      ht.low ht.high hroot ht.pos ht.recip (by linarith)
    rw [← add_assoc]
    exact this

theorem bound_parts {c : ℚ} (hc : 1 ≤ c) {pwl : Bool} {t : Types} {M : ℕ} {D lam κ B : ℚ} (ht : Fits c pwl t M D lam κ B) (hD : 0 ≤ D) :
    0 ≤ M * (c * (2 : ℚ) ^ (-t.imd.F)) ∧
    0 ≤ 2 * B * 2 ^ (-t.out.F) + (if pwl then (D + M * (c * 2 ^ (-t.imd.F))) / 440 else 0) ∧
    0 ≤ B * (c * 2 ^ (-t.out.F)) + (2 * D + M * (c * 2 ^ (-t.imd.F))) *
      (2 ^ (-t.imd.F) * B + if pwl then 2 ^ (-t.out.F) / κ + 1 / 500 else 0) := by
  have hu : (0 : ℚ) < 2 ^ (-t.imd.F) := Fmt.z_pos _
  have hv : (0 : ℚ) < 2 ^ (-t.out.F) := Fmt.z_pos _
  have hB : 0 < B := by have := ht.low; linarith
  have hn : 0 ≤ (M : ℚ) * (c * 2 ^ (-t.imd.F)) := mul_nonneg (Nat.cast_nonneg _) (mul_nonneg (by linarith) hu.le)
  have h1 : 0 < 2 ^ (-t.out.F) / κ := div_pos hv ht.pos
  refine ⟨hn, ?_, ?_⟩
  · have : 0 ≤ 2 * B * 2 ^ (-t.out.F) := mul_nonneg (by linarith) hv.le
    split_ifs <;> linarith
  · have a : 0 ≤ B * (c * 2 ^ (-t.out.F)) := mul_nonneg hB.le (mul_nonneg (by linarith) hv.le)
    have b : 0 ≤ 2 ^ (-t.imd.F) * B := mul_nonneg hu.le hB.le
    have d : 0 ≤ 2 ^ (-t.imd.F) * B + if pwl then 2 ^ (-t.out.F) / κ + 1 / 500 else 0 := by
      split_ifs <;> linarith
    have := mul_nonneg (show 0 ≤ 2 * D + M * (c * (2 : ℚ) ^ (-t.imd.F)) by linarith) d
    linarith

/-- A quadratic form on real vectors bounds the Hermitian form on complex ones. -/
theorem real_form {M : ℕ} {lam : ℚ} {A : Mem ℚ}
    (hpd : ∀ x : ℕ → ℝ, lam * ∑ i ∈ range M, x i ^ 2 ≤ ∑ i ∈ range M, ∑ j ∈ range M, x i * A i j * x j) :
    ∀ x : ℕ → ℂ, ((lam : ℚ) : ℝ) * ∑ i ∈ range M, ‖x i‖ ^ 2 ≤
      (∑ i ∈ range M, ∑ j ∈ range M, star (x i) * Proof.CholFns.rv (A i j) * x j).re := by
  intro x
  have h1 := hpd fun i => (x i).re
  have h2 := hpd fun i => (x i).im
  have e1 : ∑ i ∈ range M, ‖x i‖ ^ 2 = ∑ i ∈ range M, (x i).re ^ 2 + ∑ i ∈ range M, (x i).im ^ 2 := by
    rw [← sum_add_distrib]
    refine sum_congr rfl fun i _ => ?_
    rw [← Complex.normSq_eq_norm_sq, Complex.normSq_apply]; ring
  have e2 : (∑ i ∈ range M, ∑ j ∈ range M, star (x i) * Proof.CholFns.rv (A i j) * x j).re =
      ∑ i ∈ range M, ∑ j ∈ range M, (x i).re * A i j * (x j).re +
      ∑ i ∈ range M, ∑ j ∈ range M, (x i).im * A i j * (x j).im := by
    rw [Complex.re_sum, ← sum_add_distrib]
    refine sum_congr rfl fun i _ => ?_
    rw [Complex.re_sum, ← sum_add_distrib]
    refine sum_congr rfl fun j _ => ?_
    simp [Proof.CholFns.rv]
  rw [e1, e2, mul_add]
  linarith

/-- **C72**, ac_fixed elements, for `use_pwl` false and true, every type, rounding mode and overflow mode: a symmetric
matrix that is positive definite by more than the errors is factored within the bound. -/
theorem C72_real {pwl : Bool} {t : Types} (junk : ℚ) {M : ℕ} {D lam κ B : ℚ} (ht : Fits 1 pwl t M D lam κ B) (A L : Mem ℚ)
    (hsym : ∀ i < M, ∀ j < M, A i j = A j i) (hD : ∀ i < M, ∀ j < M, |A i j| ≤ D)
    (hpd : ∀ x : ℕ → ℝ, lam * ∑ i ∈ range M, x i ^ 2 ≤ ∑ i ∈ range M, ∑ j ∈ range M, x i * A i j * x j) :
    ∃ R, chol (realOps t (fns pwl t junk)) M A L = some R ∧ (∀ i < M, ∀ j < M, i < j → R i j = 0) ∧
      (∀ i < M, κ ≤ R i i ∧ R i i ≤ B) ∧
      ∀ i < M, ∀ j < M, |A i j - ∑ k ∈ range M, R i k * R j k| ≤ resBound 1 pwl t M D κ B := by
  rcases Nat.eq_zero_or_pos M with rfl | hM
  · obtain ⟨R, F, p, h1, -, -⟩ := Proof.Chol.chol_eq (realOps t (fns pwl t junk)) 0 A L (fun _ => 0)
    exact ⟨R, h1, fun i hi => absurd hi (by omega), fun i hi => absurd hi (by omega), fun i hi => absurd hi (by omega)⟩
  have hD0 : 0 ≤ D := (abs_nonneg _).trans (hD 0 hM 0 hM)
  obtain ⟨b1, b2, b3⟩ := bound_parts le_rfl ht hD0
  have hacc := Proof.CholFns.real_acc ht.outW ht.imdW ht.outS ht.imdS (fns_ok ht junk) ht.pos ht.quot
  have hv2 : 0 < (κ + 2 ^ (-t.out.F)) ^ 2 := pow_pos (by have := ht.pos; have := Fmt.z_pos (-t.out.F); linarith) 2
  have eig := ht.eig
  have eig2 : 0 < (if pwl then 440 / 439 else 1) * (κ + 2 ^ (-t.out.F)) ^ 2 := mul_pos (by split_ifs <;> norm_num) hv2
  have hbd : resBound 1 pwl t M D κ B = M * (1 * 2 ^ (-t.imd.F)) +
      (2 * B * 2 ^ (-t.out.F) + if pwl then (D + M * (1 * 2 ^ (-t.imd.F))) / 440 else 0) +
      (B * (1 * 2 ^ (-t.out.F)) + (2 * D + M * (1 * 2 ^ (-t.imd.F))) *
        (2 ^ (-t.imd.F) * B + if pwl then 2 ^ (-t.out.F) / κ + 1 / 500 else 0)) := rfl
  have hsum := ht.sums
  generalize he : resBound 1 pwl t M D κ B = e at *
  generalize hed : (2 * B * 2 ^ (-t.out.F) + if pwl then (D + M * (1 * 2 ^ (-t.imd.F))) / 440 else 0) = ed at *
  generalize her : (2 ^ (-t.imd.F) * B + if pwl then 2 ^ (-t.out.F) / κ + 1 / 500 else 0) = er at *
  have cast1 : (((2 : ℚ) ^ (-t.imd.F) : ℚ) : ℝ) = 2 ^ (-t.imd.F) := Proof.CholFns.u_cast _
  rw [← cast1] at hacc
  generalize (2 : ℚ) ^ (-t.imd.F) = u at *
  generalize (2 : ℚ) ^ (-t.out.F) = v at *
  simp only [one_mul] at *
  have key := C72_any (M := M) (X := (t.imd.maxVal : ℚ)) (u := (u : ℚ)) (D := (D : ℚ)) (lam := (lam : ℚ)) (κ := (κ : ℚ))
    (B := (B : ℚ)) (ed := (ed : ℚ)) (eo := ((B * v + (2 * D + M * u) * er : ℚ) : ℝ)) (e := (e : ℚ)) A L (by
      have e1 : ((lam - e * M - M * u : ℚ) : ℝ) = lam - e * M - M * u := by push_cast; rfl
      have e2 : ((D + M * u : ℚ) : ℝ) = D + M * u := by push_cast; rfl
      have e3 : ((2 * D + M * u : ℚ) : ℝ) = 2 * D + M * u := by push_cast; rfl
      rw [← e1, ← e2, ← e3]; exact hacc)
    (fun i hi j hj => by rw [Proof.CholFns.star_rv, hsym i hi j hj])
    (fun i hi j hj => by rw [Proof.CholFns.norm_rv]; exact Rat.cast_le.2 (hD i hi j hj)) ?_ ?_ ?_ ?_ ?_ ?_ ?_ ?_
  · obtain ⟨R, h1, h2, h3, h4⟩ := key
    refine ⟨R, h1, h2, fun i hi => ?_, fun i hi j hj => ?_⟩
    · obtain ⟨d, d1, d2, d3⟩ := h3 i hi
      have : ((R i i : ℚ) : ℝ) = d := Complex.ofReal_injective d1
      rw [← this] at d2 d3
      exact ⟨by exact_mod_cast d2, by exact_mod_cast d3⟩
    · have := h4 i hi j hj
      simp only [Proof.CholFns.star_rv, Proof.CholFns.rv_mul] at this
      have e1 : ∑ k ∈ range M, Proof.CholFns.rv (R i k * R j k) = Proof.CholFns.rv (∑ k ∈ range M, R i k * R j k) := by
        unfold Proof.CholFns.rv; push_cast; rfl
      rw [e1, Proof.CholFns.rv_sub, Proof.CholFns.norm_rv] at this
      exact Rat.cast_le.1 this
  · exact real_form hpd
  · have : 0 ≤ u := by
      by_contra hc
      have h1 : (0 : ℚ) < M := by exact_mod_cast hM
      have := mul_neg_of_pos_of_neg h1 (not_le.1 hc)
      linarith
    exact_mod_cast this
  · exact_mod_cast hsum
  · exact_mod_cast ht.pos
  · have : 0 ≤ e := by linarith
    exact_mod_cast this
  · have : M * u + ed ≤ e := by linarith
    exact_mod_cast this
  · have : M * u + (B * v + (2 * D + M * u) * er) ≤ e := by linarith
    exact_mod_cast this
  · have e5 : (M : ℚ) * (e + u) = e * M + M * u := by ring
    have : e * M + M * u < lam := by linarith
    exact_mod_cast this

/-- **C72**, ac_complex<ac_fixed> elements, for `use_pwl` false and true: a Hermitian matrix that is positive definite by
more than the errors is factored within the bound. -/
theorem C72_complex {pwl : Bool} {t : Types} (junk : ℚ) {M : ℕ} {D lam κ B : ℚ} (ht : Fits 2 pwl t M D lam κ B)
    (A L : Mem (ℚ × ℚ)) (hsym : ∀ i < M, ∀ j < M, A i j = ((A j i).1, -(A j i).2))
    (hD : ∀ i < M, ∀ j < M, ‖cv (A i j)‖ ≤ D)
    (hpd : ∀ x : ℕ → ℂ, lam * ∑ i ∈ range M, ‖x i‖ ^ 2 ≤
      (∑ i ∈ range M, ∑ j ∈ range M, star (x i) * cv (A i j) * x j).re) :
    ∃ R, chol (complexOps t (fns pwl t junk)) M A L = some R ∧ (∀ i < M, ∀ j < M, i < j → R i j = (0, 0)) ∧
      (∀ i < M, κ ≤ (R i i).1 ∧ (R i i).1 ≤ B ∧ (R i i).2 = 0) ∧
      ∀ i < M, ∀ j < M, ‖cv (A i j) -
        ∑ k ∈ range M, cv (R i k) * star (cv (R j k))‖ ≤ resBound 2 pwl t M D κ B := by
  rcases Nat.eq_zero_or_pos M with rfl | hM
  · obtain ⟨R, F, p, h1, -, -⟩ := Proof.Chol.chol_eq (complexOps t (fns pwl t junk)) 0 A L (fun _ => 0)
    exact ⟨R, h1, fun i hi => absurd hi (by omega), fun i hi => absurd hi (by omega), fun i hi => absurd hi (by omega)⟩
  have hD0 : 0 ≤ D := by
    have := (norm_nonneg _).trans (hD 0 hM 0 hM)
    exact_mod_cast this
  obtain ⟨b1, b2, b3⟩ := bound_parts (by norm_num) ht hD0
  have hacc := Proof.CholFns.complex_acc ht.outW ht.imdW ht.outS ht.imdS (fns_ok ht junk) ht.pos ht.quot
  have hv2 : 0 < (κ + 2 ^ (-t.out.F)) ^ 2 := pow_pos (by have := ht.pos; have := Fmt.z_pos (-t.out.F); linarith) 2
  have eig := ht.eig
  have eig2 : 0 < (if pwl then 440 / 439 else 1) * (κ + 2 ^ (-t.out.F)) ^ 2 := mul_pos (by split_ifs <;> norm_num) hv2
  have hbd : resBound 2 pwl t M D κ B = M * (2 * 2 ^ (-t.imd.F)) +
      (2 * B * 2 ^ (-t.out.F) + if pwl then (D + M * (2 * 2 ^ (-t.imd.F))) / 440 else 0) +
      (B * (2 * 2 ^ (-t.out.F)) + (2 * D + M * (2 * 2 ^ (-t.imd.F))) *
        (2 ^ (-t.imd.F) * B + if pwl then 2 ^ (-t.out.F) / κ + 1 / 500 else 0)) := rfl
  have hsum := ht.sums
  have hu : (0 : ℚ) < 2 * 2 ^ (-t.imd.F) := mul_pos (by norm_num) (Fmt.z_pos _)
  generalize he : resBound 2 pwl t M D κ B = e at *
  generalize hed : (2 * B * 2 ^ (-t.out.F) + if pwl then (D + M * (2 * 2 ^ (-t.imd.F))) / 440 else 0) = ed at *
  generalize her : (2 ^ (-t.imd.F) * B + if pwl then 2 ^ (-t.out.F) / κ + 1 / 500 else 0) = er at *
  have cast1 : ((2 * (2 : ℚ) ^ (-t.imd.F) : ℚ) : ℝ) = 2 * 2 ^ (-t.imd.F) := by push_cast; rfl
  rw [← cast1] at hacc
  generalize 2 * (2 : ℚ) ^ (-t.imd.F) = u at *
  generalize (2 : ℚ) ^ (-t.out.F) = v at *
  have key := C72_any (M := M) (X := (t.imd.maxVal : ℚ)) (u := (u : ℚ)) (D := (D : ℚ)) (lam := (lam : ℚ)) (κ := (κ : ℚ))
    (B := (B : ℚ)) (ed := (ed : ℚ)) (eo := ((B * (2 * v) + (2 * D + M * u) * er : ℚ) : ℝ)) (e := (e : ℚ)) A L (by
      have e1 : ((lam - e * M - M * u : ℚ) : ℝ) = lam - e * M - M * u := by push_cast; rfl
      have e2 : ((D + M * u : ℚ) : ℝ) = D + M * u := by push_cast; rfl
      have e3 : ((2 * D + M * u : ℚ) : ℝ) = 2 * D + M * u := by push_cast; rfl
      rw [← e1, ← e2, ← e3]; exact hacc)
    (fun i hi j hj => by
      rw [hsym i hi j hj]
      apply Complex.ext <;> simp [cv])
    hD hpd ?_ ?_ ?_ ?_ ?_ ?_ ?_
  · obtain ⟨R, h1, h2, h3, h4⟩ := key
    refine ⟨R, h1, h2, fun i hi => ?_, h4⟩
    obtain ⟨d, d1, d2, d3⟩ := h3 i hi
    have r1 : ((R i i).1 : ℝ) = d := by
      have := congrArg Complex.re d1
      simpa [cv] using this
    have r2 : ((R i i).2 : ℝ) = 0 := by
      have := congrArg Complex.im d1
      simpa [cv] using this
    rw [← r1] at d2 d3
    exact ⟨by exact_mod_cast d2, by exact_mod_cast d3, by exact_mod_cast r2⟩
  · exact_mod_cast hu.le
  · exact_mod_cast hsum
  · exact_mod_cast ht.pos
  · have : 0 ≤ e := by linarith
    exact_mod_cast this
  · have : M * u + ed ≤ e := by linarith
    exact_mod_cast this
  · have : M * u + (B * (2 * v) + (2 * D + M * u) * er) ≤ e := by linarith
    exact_mod_cast this
  · have e5 : (M : ℚ) * (e + u) = e * M + M * u := by ring
    have : e * M + M * u < lam := by linarith
    exact_mod_cast this

/-- Types for the examples: `ac_fixed<16,8,true>` throughout. -/
def t16 : Types := ⟨⟨16, 8, true, .TRN, .WRAP⟩, ⟨16, 8, true, .TRN, .WRAP⟩, imdFmt ⟨16, 8, true, .TRN, .WRAP⟩ 0 0 .RND .SAT⟩

theorem fits16 (pwl : Bool) : Fits 1 pwl t16 2 2 (3 / 2) 1 (29 / 20) where
  outW := by decide
  imdW := by decide
  outS := rfl
  imdS := rfl
  bits := by decide
  sums := by decide +kernel
  low := by decide +kernel
  high := by decide +kernel
  root := by rw [pow_two]; cases pwl <;> decide +kernel
  pos := by norm_num
  recip := by decide +kernel
  quot := by decide +kernel
  eig := by rw [pow_two]; cases pwl <;> decide +kernel

theorem fits16c (pwl : Bool) : Fits 2 pwl t16 2 2 (3 / 2) 1 (29 / 20) where
  outW := by decide
  imdW := by decide
  outS := rfl
  imdS := rfl
  bits := by decide
  sums := by decide +kernel
  low := by decide +kernel
  high := by decide +kernel
  root := by rw [pow_two]; cases pwl <;> decide +kernel
  pos := by norm_num
  recip := by decide +kernel
  quot := by decide +kernel
  eig := by rw [pow_two]; cases pwl <;> decide +kernel

/-- The bounds of the examples. -/
example : resBound 1 true t16 2 2 1 (29 / 20) ≤ 1 / 12 ∧ resBound 2 true t16 2 2 1 (29 / 20) ≤ 1 / 11 := by decide +kernel

/-- The hypothesis of `C72_any` holds of the ac_fixed arithmetic with the PWL functions. -/
example : ∃ ed eo : ℝ, Accurate (complexOps t16 (fns true t16 0)) cv cv (fun q : ℚ => (q : ℝ)) cv t16.imd.Rep (t16.imd.maxVal : ℚ)
    (2 * 2 ^ (-t16.imd.F))
    ((3 / 2 - resBound 2 true t16 2 2 1 (29 / 20) * (2 : ℕ) - (2 : ℕ) * (2 * 2 ^ (-t16.imd.F)) : ℚ))
    ((2 + (2 : ℕ) * (2 * 2 ^ (-t16.imd.F)) : ℚ)) ((2 * 2 + (2 : ℕ) * (2 * 2 ^ (-t16.imd.F)) : ℚ)) (1 : ℚ) (29 / 20 : ℚ) ed eo :=
  have ht := fits16c true
  ⟨_, _, Proof.CholFns.complex_acc ht.outW ht.imdW ht.outS ht.imdS (fns_ok ht 0) ht.pos ht.quot⟩

/-- The matrix [[2,1/2],[1/2,2]]. -/
def mat2 : Mem ℚ := fun i j => if i = j then 2 else 1 / 2

theorem lt_two {i : ℕ} (h : i < 2) : i = 0 ∨ i = 1 := by omega

example (pwl : Bool) : ∃ R, chol (realOps t16 (fns pwl t16 0)) 2 mat2 (fun _ _ => 7) = some R ∧
    (∀ i < 2, ∀ j < 2, i < j → R i j = 0) ∧ (∀ i < 2, 1 ≤ R i i ∧ R i i ≤ 29 / 20) ∧
    ∀ i < 2, ∀ j < 2, |mat2 i j - ∑ k ∈ range 2, R i k * R j k| ≤ resBound 1 pwl t16 2 2 1 (29 / 20) := by
  refine C72_real 0 (fits16 pwl) mat2 _ (fun i hi j hj => ?_) (fun i hi j hj => ?_) fun x => ?_
  · rcases lt_two hi with rfl | rfl <;> rcases lt_two hj with rfl | rfl <;> decide +kernel
  · rcases lt_two hi with rfl | rfl <;> rcases lt_two hj with rfl | rfl <;> decide +kernel
  · simp only [sum_range_succ, range_zero, sum_empty, mat2]
    norm_num
    nlinarith [sq_nonneg (x 0 + x 1)]

/-- The matrix [[2,i/2],[-i/2,2]]. -/
def matc : Mem (ℚ × ℚ) := fun i j => if i = j then (2, 0) else if i < j then (0, 1 / 2) else (0, -(1 / 2))

example (pwl : Bool) : ∃ R, chol (complexOps t16 (fns pwl t16 0)) 2 matc (fun _ _ => (7, 7)) = some R ∧
    (∀ i < 2, ∀ j < 2, i < j → R i j = (0, 0)) ∧ (∀ i < 2, 1 ≤ (R i i).1 ∧ (R i i).1 ≤ 29 / 20 ∧ (R i i).2 = 0) ∧
    ∀ i < 2, ∀ j < 2, ‖cv (matc i j) - ∑ k ∈ range 2, cv (R i k) * star (cv (R j k))‖ ≤ resBound 2 pwl t16 2 2 1 (29 / 20) := by
  refine C72_complex 0 (fits16c pwl) matc _ (fun i hi j hj => ?_) (fun i hi j hj => ?_) fun x => ?_
  · rcases lt_two hi with rfl | rfl <;> rcases lt_two hj with rfl | rfl <;> decide +kernel
  · refine (Proof.CholFns.norm_cv_le _).trans ?_
    have : |(matc i j).1| + |(matc i j).2| ≤ 2 := by
      rcases lt_two hi with rfl | rfl <;> rcases lt_two hj with rfl | rfl <;> decide +kernel
    exact_mod_cast this
  · simp only [sum_range_succ, range_zero, sum_empty, matc, cv]
    simp only [← Complex.normSq_eq_norm_sq, Complex.normSq_apply]
    simp
    nlinarith [sq_nonneg ((x 0).re - (x 1).im), sq_nonneg ((x 0).im + (x 1).re)]

end Props.CholAny
