import Verif.Proof.StdChol

/-! # C81: the Cholesky decomposition of matrices of standard floating-point numbers

`cholArray c pwl dw di de q sub junk Mi Ei Mo Eo M A L` is the output of `ac_chol_d` for an `M`x`M` matrix `A` of bit patterns of an
ac_std_float or ac_ieee_float type with `Mi` mantissa and `Ei` exponent bits; the output type has `Mo` and `Eo` bits.  The intermediate
type has `dw` more bits than that of the output, `di` more integer and `de` more exponent bits.  `value` is the number that a bit pattern
stands for; `c` are the conversions of ac_types, `sub` and `junk` are as in C79. -/

namespace Props.StdChol
open Ac Model.CholFloat Model.StdChol Model.StdFloat Spec.StdFloat Spec.CholFloat Finset
open Model.Float (FFmt)
open Props.CholFloat (Fits resBound)

/-- The output type. -/
abbrev outT (Mo Eo : ℕ) : FFmt := fl .TRN Mo Eo

/-- **C81**: a symmetric matrix that is positive definite by more than the errors is factored: all elements of the output are finite, it is
lower triangular, its diagonal is positive, and no element of `A - L*Lᵀ` exceeds the bound of C79 by more than the conversion of
subnormal elements costs. -/
theorem C81_factor {c : Conv} (hc : Ok c) {pwl : Bool} {dw de Mi Ei Mo Eo M : ℕ} {di : ℤ} {q : QMode} {sub : FFmt → ℚ → ℚ → ℚ} (junk : ℚ)
    {D lam u κ B X : ℚ} (ho : 2 ≤ Eo) {imd : FFmt} (himd : imd = imdT (outT Mo Eo) dw di de q)
    (ht : Fits pwl (outT Mo Eo) imd M D lam u κ B) (hsub : SubOk imd (sub imd) (2 * D + M * u) u)
    (hX : 0 ≤ X) (hXs : D + resBound pwl (outT Mo Eo) imd M D u B ≤ X ^ 2) (hXl : X ≤ largest Mo Eo)
    (hκ : smallest Eo ≤ (1 - rootErr pwl (outT Mo Eo) imd) * κ) (A L : Mem ℕ) {a : Mem ℚ} (ha : ∀ i j, a i j = value false Mi Ei (A i j))
    (hA : ∀ i < M, ∀ j < M, Finite Mi Ei (A i j)) (hsym : ∀ i < M, ∀ j < M, a i j = a j i) (hD : ∀ i < M, ∀ j < M, |a i j| ≤ D)
    (hpd : ∀ x : ℕ → ℝ, lam * ∑ i ∈ range M, x i ^ 2 ≤ ∑ i ∈ range M, ∑ j ∈ range M, x i * a i j * x j) :
    ∃ R, cholArray c pwl dw di de q sub junk Mi Ei Mo Eo M A L = some R ∧ (∀ i < M, ∀ j < M, Finite Mo Eo (R i j)) ∧
      (∀ i < M, ∀ j < M, i < j → value false Mo Eo (R i j) = 0) ∧
      (∀ i < M, (1 - rootErr pwl (outT Mo Eo) imd) * κ ≤ value false Mo Eo (R i i)) ∧
      (∀ i < M, ∀ j < M, |a i j - ∑ k ∈ range M, value false Mo Eo (R i k) * value false Mo Eo (R j k)| ≤
        resBound pwl (outT Mo Eo) imd M D u B + M * ((2 * X + smallest Eo) * smallest Eo)) ∧
      ∀ i j, ¬ (i < M ∧ j < M) → R i j = L i j := by
  have hb : ∀ i < M, ∀ j < M, (c.toF Mi Ei (A i j)).1 * 2 ^ (c.toF Mi Ei (A i j)).2 = a i j := fun i hi j hj => by
    rw [hc.toF _ _ _ (hA i hi j hj), Proof.StdChol.rep_value, ha]
  obtain ⟨R, h1, h2, h3, h4⟩ := Props.CholFloat.C79_factor junk ht hsub
    (fun i j => (c.toF Mi Ei (A i j)).1 * 2 ^ (c.toF Mi Ei (A i j)).2) (fun _ _ => junk)
    (fun i hi j hj => by rw [hb i hi j hj, hb j hj i hi, hsym i hi j hj]) (fun i hi j hj => by rw [hb i hi j hj]; exact hD i hi j hj)
    (fun x => by
      refine (hpd x).trans (le_of_eq (sum_congr rfl fun i hi => sum_congr rfl fun j hj => ?_))
      rw [hb i (mem_range.1 hi) j (mem_range.1 hj)])
  have h4' : ∀ i < M, ∀ j < M, |a i j - ∑ k ∈ range M, R i k * R j k| ≤ resBound pwl (outT Mo Eo) imd M D u B := fun i hi j hj => by
    have := h4 i hi j hj
    rwa [hb i hi j hj] at this
  have hR : ∀ i < M, ∀ j < M, |R i j| ≤ X := fun i hi j hj =>
    Proof.StdChol.elem_le hj (hD i hi i hi) (h4' i hi i hi) hX hXs
  have hconv : ∀ i < M, ∀ j < M, _ := fun i hi j hj =>
    Proof.StdFloat.ofF_num (q := .TRN) hc ho (Proof.StdChol.entries (by simp [fl]) h1 hi hj) ((hR i hi j hj).trans hXl)
  refine ⟨fun i j => if i < M ∧ j < M then c.ofF Mo Eo (R i j) else L i j, ?_, fun i hi j hj => ?_, fun i hi j hj hij => ?_,
    fun i hi => ?_, fun i hi j hj => ?_, fun i j h => if_neg h⟩
  · unfold cholArray floatArray
    rw [← himd]
    dsimp only
    rw [h1]; rfl
  · simp only [if_pos (And.intro hi hj)]
    exact (hconv i hi j hj).1
  · simp only [if_pos (And.intro hi hj)]
    rw [(hconv i hi j hj).2.2 (Or.inl (h2 i hi j hj hij)), h2 i hi j hj hij]
  · simp only [if_pos (And.intro hi hi)]
    have h := (h3 i hi).1
    have hs : 0 < smallest Eo := Fmt.z_pos _
    rw [(hconv i hi i hi).2.2 (Or.inr (by rw [abs_of_nonneg (by linarith)]; linarith))]
    exact h
  · have e1 : ∑ k ∈ range M, value false Mo Eo (if i < M ∧ k < M then c.ofF Mo Eo (R i k) else L i k) *
        value false Mo Eo (if j < M ∧ k < M then c.ofF Mo Eo (R j k) else L j k) =
        ∑ k ∈ range M, value false Mo Eo (c.ofF Mo Eo (R i k)) * value false Mo Eo (c.ofF Mo Eo (R j k)) :=
      sum_congr rfl fun k hk => by
        have hk := mem_range.1 hk
        rw [if_pos ⟨hi, hk⟩, if_pos ⟨hj, hk⟩]
    rw [e1]
    have e2 : |∑ k ∈ range M, (R i k * R j k - value false Mo Eo (c.ofF Mo Eo (R i k)) * value false Mo Eo (c.ofF Mo Eo (R j k)))| ≤
        M * ((2 * X + smallest Eo) * smallest Eo) := by
      refine (abs_sum_le_sum_abs _ _).trans ((sum_le_card_nsmul _ _ ((2 * X + smallest Eo) * smallest Eo) fun k hk => ?_).trans (by simp))
      have hk := mem_range.1 hk
      exact Proof.StdChol.prod_err (hR i hi k hk) (hR j hj k hk) (hconv i hi k hk).2.1 (hconv j hj k hk).2.1
    rw [sum_sub_distrib] at e2
    have e3 := h4' i hi j hj
    have := abs_add_le (a i j - ∑ k ∈ range M, R i k * R j k) (∑ k ∈ range M, R i k * R j k -
      ∑ k ∈ range M, value false Mo Eo (c.ofF Mo Eo (R i k)) * value false Mo Eo (c.ofF Mo Eo (R j k)))
    rw [sub_add_sub_cancel] at this
    linarith

/-- binary32 for the output and the default intermediate type. -/
theorem range32 (pwl : Bool) : Range pwl (outT 23 8) (imdT (outT 23 8) 0 0 0 .RND) 1 (29 / 20) where
  outW := by decide
  imdW := by decide
  outE := by decide
  imdE := by decide
  rootBits _ := by decide
  recBits _ := by decide
  pos := by norm_num
  sumLow := by decide +kernel
  outLow := by cases pwl <;> decide +kernel
  outHigh := by cases pwl <;> decide +kernel
  recLow := by cases pwl <;> decide +kernel
  recHigh := by cases pwl <;> decide +kernel

theorem fits32 (pwl : Bool) : Fits pwl (outT 23 8) (imdT (outT 23 8) 0 0 0 .RND) 2 2 (3 / 2) (1 / 2 ^ 20) 1 (29 / 20) where
  range := range32 pwl
  err := by norm_num
  sums := by decide +kernel
  unit := by decide +kernel
  high := by norm_num
  root := by decide +kernel
  quot := by cases pwl <;> decide +kernel
  eig := by cases pwl <;> decide +kernel

/-- The matrix [[2,1/2],[1/2,2]] in binary16. -/
def pat2 : Mem ℕ := fun i j => if i = j then 0x4000 else 0x3800

/-- The hypotheses hold for it, with an output in binary32. -/
example {c : Conv} (hc : Ok c) (pwl : Bool) (L : Mem ℕ) :
    ∃ R, cholArray c pwl 0 0 0 .RND (fun t s y => t.cvt (s - y)) 7 10 5 23 8 2 pat2 L = some R ∧
      (∀ i < 2, 0 < value false 23 8 (R i i)) ∧
      ∀ i < 2, ∀ j < 2, |Props.CholAny.mat2 i j - ∑ k ∈ range 2, value false 23 8 (R i k) * value false 23 8 (R j k)| ≤ if pwl then 1 / 70 else 1 / 2 ^ 16 := by
  have ht := fits32 pwl
  have hv : ∀ i j, Props.CholAny.mat2 i j = value false 10 5 (pat2 i j) := fun i j => by
    unfold Props.CholAny.mat2 pat2; split_ifs <;> decide +kernel
  obtain ⟨R, h1, -, -, h2, h3, -⟩ := C81_factor (Mi := 10) (Ei := 5) (X := 2) hc 7 (by norm_num) rfl ht
    (sub := fun t s y => t.cvt (s - y)) (Props.CholFloat.sub_cvt (by decide) ht.sums ht.unit) (by norm_num)
    (by cases pwl <;> decide +kernel) (by decide +kernel) (by cases pwl <;> decide +kernel) pat2 L (a := Props.CholAny.mat2) hv
    (fun i _ j _ => by unfold pat2; split_ifs <;> exact ⟨by decide, by decide⟩)
    (fun i hi j hj => by
      rcases Props.CholAny.lt_two hi with rfl | rfl <;> rcases Props.CholAny.lt_two hj with rfl | rfl <;> decide +kernel)
    (fun i hi j hj => by
      rcases Props.CholAny.lt_two hi with rfl | rfl <;> rcases Props.CholAny.lt_two hj with rfl | rfl <;> decide +kernel)
    (fun x => by
      simp only [sum_range_succ, range_zero, sum_empty, Props.CholAny.mat2]
      norm_num
      nlinarith [sq_nonneg (x 0 + x 1)])
  refine ⟨R, h1, fun i hi => lt_of_lt_of_le ?_ (h2 i hi), fun i hi j hj => (h3 i hi j hj).trans ?_⟩
  · cases pwl <;> decide +kernel
  · cases pwl <;> decide +kernel

/-- **C81** for ac_matrix objects: the intermediate type is that for `delta_e` = 0, whatever `delta_e` is.  The example above is one for it
too. -/
theorem C81_matrix {c : Conv} (hc : Ok c) {pwl : Bool} {dw de Mi Ei Mo Eo M : ℕ} {di : ℤ} {q : QMode} {sub : FFmt → ℚ → ℚ → ℚ} (junk : ℚ)
    {D lam u κ B X : ℚ} (ho : 2 ≤ Eo) {imd : FFmt} (himd : imd = imdT (outT Mo Eo) dw di 0 q)
    (ht : Fits pwl (outT Mo Eo) imd M D lam u κ B) (hsub : SubOk imd (sub imd) (2 * D + M * u) u)
    (hX : 0 ≤ X) (hXs : D + resBound pwl (outT Mo Eo) imd M D u B ≤ X ^ 2) (hXl : X ≤ largest Mo Eo)
    (hκ : smallest Eo ≤ (1 - rootErr pwl (outT Mo Eo) imd) * κ) (A L : Mem ℕ) {a : Mem ℚ} (ha : ∀ i j, a i j = value false Mi Ei (A i j))
    (hA : ∀ i < M, ∀ j < M, Finite Mi Ei (A i j)) (hsym : ∀ i < M, ∀ j < M, a i j = a j i) (hD : ∀ i < M, ∀ j < M, |a i j| ≤ D)
    (hpd : ∀ x : ℕ → ℝ, lam * ∑ i ∈ range M, x i ^ 2 ≤ ∑ i ∈ range M, ∑ j ∈ range M, x i * a i j * x j) :
    ∃ R, cholMatrix c pwl dw di de q sub junk Mi Ei Mo Eo M A L = some R ∧ (∀ i < M, ∀ j < M, Finite Mo Eo (R i j)) ∧
      (∀ i < M, ∀ j < M, i < j → value false Mo Eo (R i j) = 0) ∧
      (∀ i < M, (1 - rootErr pwl (outT Mo Eo) imd) * κ ≤ value false Mo Eo (R i i)) ∧
      (∀ i < M, ∀ j < M, |a i j - ∑ k ∈ range M, value false Mo Eo (R i k) * value false Mo Eo (R j k)| ≤
        resBound pwl (outT Mo Eo) imd M D u B + M * ((2 * X + smallest Eo) * smallest Eo)) ∧
      ∀ i j, ¬ (i < M ∧ j < M) → R i j = L i j :=
  C81_factor hc junk ho himd ht hsub hX hXs hXl hκ A L ha hA hsym hD hpd

/-- An output element of a 1x1 matrix. -/
theorem one_by_one {c : Conv} (hc : Ok c) {de p : ℕ} {v x : ℚ} (hp : Finite 23 8 p) (hv : value false 23 8 p = v)
    (hx : (floatArray false (fl .TRN 10 5) 0 0 de .RND (fun t s y => t.cvt (s - y)) 0 1 (fun _ _ => v) (fun _ _ => 0)).map (fun R => R 0 0) =
      some x) (h1 : smallest 5 ≤ |x|) (h2 : |x| ≤ largest 10 5) :
    ∃ R, cholArray c false 0 0 de .RND (fun t s y => t.cvt (s - y)) 0 23 8 10 5 1 (fun _ _ => p) (fun _ _ => 0) = some R ∧
      value false 10 5 (R 0 0) = x := by
  obtain ⟨R, hR, rfl⟩ := Option.map_eq_some_iff.1 hx
  have hn : IsNum (fl .TRN 10 5) (R 0 0) := by
    have h := hR
    unfold floatArray at h
    exact Proof.StdChol.entries (by simp [fl]) h (by norm_num) (by norm_num)
  refine ⟨fun i j => if i < 1 ∧ j < 1 then c.ofF 10 5 (R i j) else 0, ?_, ?_⟩
  · unfold cholArray
    dsimp only
    rw [hc.toF _ _ _ hp, Proof.StdChol.rep_value, hv, hR]
    rfl
  · simp only [Nat.lt_one_iff, and_self, if_true]
    exact (Proof.StdFloat.ofF_num (q := .TRN) hc (by norm_num) hn h2).2.2 (Or.inr h1)

/-- So `delta_e` has no effect there: the binary32 matrix 2^18 with the output type binary16 and an additional exponent bit has the factor
512 with arrays, and one below 256 with ac_matrix objects. -/
theorem C81_delta_e_wrong {c : Conv} (hc : Ok c) : ∃ R S,
    cholArray c false 0 0 1 .RND (fun t s y => t.cvt (s - y)) 0 23 8 10 5 1 (fun _ _ => 0x48800000) (fun _ _ => 0) = some R ∧
    value false 10 5 (R 0 0) = 512 ∧
    cholMatrix c false 0 0 1 .RND (fun t s y => t.cvt (s - y)) 0 23 8 10 5 1 (fun _ _ => 0x48800000) (fun _ _ => 0) = some S ∧
    value false 10 5 (S 0 0) < 256 ∧ value false 23 8 0x48800000 = 512 ^ 2 := by
  have hp : Finite 23 8 0x48800000 := ⟨by decide, by decide⟩
  obtain ⟨R, r1, r2⟩ := one_by_one hc (de := 1) (v := 2 ^ 18) (x := 512) hp (by decide +kernel) (by decide +kernel) (by decide +kernel)
    (by decide +kernel)
  obtain ⟨S, s1, s2⟩ := one_by_one hc (de := 0) (v := 2 ^ 18) (x := 2047 / 8) hp (by decide +kernel) (by decide +kernel) (by decide +kernel)
    (by decide +kernel)
  exact ⟨R, S, r1, r2, s1, by rw [s2]; norm_num, by decide +kernel⟩

end Props.StdChol
