import Verif.Proof.DetComplex
import Mathlib.Data.Complex.Basic
import Mathlib.Tactic.NormNum
import Mathlib.Tactic.IntervalCases
import Mathlib.LinearAlgebra.Matrix.Determinant.Basic

/-! # C82: ac_determinant for complex numbers -/

namespace Props.DetComplex
open Ac Model.DetComplex Proof.DetComplex
open Model.Determinant (Types growth)

/-- A type of parts holds a complex number unchanged. -/
def Holds (f : Fmt) (z : Cx) : Prop := cvt f z = z

/-- Both parts are values of the type. -/
def RepC (f : Fmt) (z : Cx) : Prop := f.Rep z.re ∧ f.Rep z.im

/-- Every element is a value of the input type. -/
def AllRep (f : Fmt) (M : ℕ) (A : Mem Cx) : Prop := ∀ i < M, ∀ j < M, RepC f (A i j)

/-- The minor of `A` without the first row and column `j`. -/
abbrev cofMinor {n : ℕ} (A : Matrix (Fin (n + 1)) (Fin (n + 1)) Cx) (j : Fin (n + 1)) : Matrix (Fin n) (Fin n) Cx :=
  A.submatrix Fin.succ j.succAbove

/-- The `j`-th term of the expansion along the first row. -/
def term {n : ℕ} (A : Matrix (Fin (n + 1)) (Fin (n + 1)) Cx) (j : Fin (n + 1)) : Cx :=
  (-1) ^ (j : ℕ) * A 0 j * (cofMinor A j).det

/-- The intermediate values of the expansion fit the internal types: the element of a 1x1 matrix, the two products and the
determinant of a 2x2 matrix in `base`, every minor of size 2 or more in `temp`, with its sign in `c`, every minor of size 3 or
more also in `out` (in which the recursion returns it), and every partial sum of the expansion in `d`. -/
def Fits (t : Types) : (M : ℕ) → Matrix (Fin M) (Fin M) Cx → Prop
  | 0, _ => True
  | 1, A => Holds t.base (A 0 0)
  | 2, A => Holds t.base (A 0 0 * A 1 1) ∧ Holds t.base (A 0 1 * A 1 0) ∧ Holds t.base A.det
  | M + 3, A => (∀ j, Holds t.temp (cofMinor A j).det ∧ Holds t.c ((-1) ^ (j : ℕ) * (cofMinor A j).det) ∧
      (1 ≤ M → Holds t.out (cofMinor A j).det) ∧ Fits t (M + 2) (cofMinor A j)) ∧
      ∀ m ≤ M + 3, Holds t.d (∑ j : Fin (M + 3) with j.1 < m, term A j)

/-- The base type of the code, for inputs with parts of type `fi`. -/
def BaseOk (t : Types) (fi : Fmt) : Prop := t.base = ⟨2 * fi.W + 1, 2 * fi.I + 1, true, fi.Q, fi.O⟩

/-- The complex number that a pair of rational parts stands for. -/
def toC : Cx →+* ℂ where
  toFun z := ⟨z.re, z.im⟩
  map_one' := by apply Complex.ext <;> simp [show (1 : Cx).re = 1 from rfl, show (1 : Cx).im = 0 from rfl]
  map_zero' := by apply Complex.ext <;> simp
  map_add' x y := by apply Complex.ext <;> simp
  map_mul' x y := by
    apply Complex.ext
    · simp [QuadraticAlgebra.re_mul]; ring
    · simp [QuadraticAlgebra.im_mul]

theorem compute_two {t : Types} (A : Mem Cx) (hF : Fits t 2 (A.mat 2 2)) : compute t 2 A = (A.mat 2 2).det := by
  obtain ⟨h1, h2, h3⟩ := hF
  rw [Matrix.det_fin_two] at h3 ⊢
  unfold Holds at h1 h2 h3
  rw [compute]
  change cvt t.base (cvt t.base ((A.mat 2 2) 0 0 * (A.mat 2 2) 1 1) - cvt t.base ((A.mat 2 2) 0 1 * (A.mat 2 2) 1 0)) = _
  rw [h1, h2, h3]

theorem sum_lt_succ {n : ℕ} (g : Fin n → Cx) {m : ℕ} (hm : m < n) :
    ∑ j : Fin n with j.1 < m + 1, g j = ∑ j : Fin n with j.1 < m, g j + g ⟨m, hm⟩ := by
  have : (Finset.univ.filter fun j : Fin n => j.1 < m + 1) =
      insert ⟨m, hm⟩ (Finset.univ.filter fun j : Fin n => j.1 < m) := by
    ext j
    simp only [Finset.mem_filter, Finset.mem_univ, true_and, Finset.mem_insert, Fin.ext_iff]
    omega
  rw [this, Finset.sum_insert (by simp), add_comm]

theorem det_eq_terms {n : ℕ} (A : Matrix (Fin (n + 1)) (Fin (n + 1)) Cx) :
    A.det = ∑ j : Fin (n + 1) with j.1 < n + 1, term A j := by
  rw [Matrix.det_succ_row_zero]
  have : (Finset.univ.filter fun j : Fin (n + 1) => j.1 < n + 1) = Finset.univ := by ext j; simp; omega
  rw [this]; rfl

/-- What the recursion returns for size 3 and more: the determinant, converted to the caller's output type. -/
theorem compute_eq {t : Types} : ∀ (M : ℕ) (A : Mem Cx), Fits t (M + 3) (A.mat (M + 3) (M + 3)) →
    compute t (M + 3) A = cvt t.out (A.mat (M + 3) (M + 3)).det := by
  intro M
  induction M with
  | zero =>
    intro A hF
    obtain ⟨h1, h2⟩ := hF
    have hc : ∀ j : Fin 3, compute t 2 (minor A j) = (cofMinor (A.mat 3 3) j).det := by
      intro j
      rw [compute_two _ (by rw [minor_mat A 2 j]; exact (h1 j).2.2.2), minor_mat A 2 j]
    rw [compute, det_eq_terms]
    congr 1
    have key : ∀ m ≤ 3, forUp (fun j d => cvt t.d (d + A 0 j * cvt t.c ((-1) ^ j * cvt t.temp (compute t 2 (minor A j))))) m
        (cvt t.d 0) = ∑ j : Fin 3 with j.1 < m, term (A.mat 3 3) j := by
      intro m hm
      induction m with
      | zero => have := h2 0 (by omega); simpa [Holds, forUp] using this
      | succ m ih =>
        have hmc := hc ⟨m, by omega⟩
        obtain ⟨ht, hcc, _, _⟩ := h1 ⟨m, by omega⟩
        unfold Holds at ht hcc
        simp only at hmc hcc
        have h3 := h2 (m + 1) hm
        unfold Holds at h3
        rw [sum_lt_succ _ (show m < 3 by omega)] at h3 ⊢
        rw [forUp, ih (by omega), hmc, ht, hcc]
        rw [← h3]
        congr 2
        unfold term Mem.mat
        simp only [Fin.val_zero]
        ring
    exact key 3 le_rfl
  | succ M ih =>
    intro A hF
    obtain ⟨h1, h2⟩ := hF
    have hc : ∀ j : Fin (M + 4), compute t (M + 3) (minor A j) = (cofMinor (A.mat (M + 4) (M + 4)) j).det := by
      intro j
      rw [ih _ (by rw [minor_mat]; exact (h1 j).2.2.2), minor_mat A (M + 3) j]
      exact (h1 j).2.2.1 (by omega)
    rw [compute, det_eq_terms]
    congr 1
    have key : ∀ m ≤ M + 4, forUp (fun j d => cvt t.d (d + A 0 j * cvt t.c ((-1) ^ j * cvt t.temp (compute t (M + 3) (minor A j))))) m
        (cvt t.d 0) = ∑ j : Fin (M + 4) with j.1 < m, term (A.mat (M + 4) (M + 4)) j := by
      intro m hm
      induction m with
      | zero => have := h2 0 (by omega); simpa [Holds, forUp] using this
      | succ m ih' =>
        have hmc := hc ⟨m, by omega⟩
        obtain ⟨ht, hcc, _, _⟩ := h1 ⟨m, by omega⟩
        unfold Holds at ht hcc
        simp only at hmc hcc
        have h3 := h2 (m + 1) hm
        unfold Holds at h3
        rw [sum_lt_succ _ (show m < M + 4 by omega)] at h3 ⊢
        rw [forUp, ih' (by omega), hmc, ht, hcc]
        rw [← h3]
        congr 2
        unfold term Mem.mat
        simp only [Fin.val_zero]
        ring
    exact key (M + 4) le_rfl

/-- For every size, when the intermediate values and the determinant fit the types, the result is the determinant. -/
theorem C82_exact {t : Types} (M : ℕ) (hM : 1 ≤ M) (A : Mem Cx) (hF : Fits t M (A.mat M M)) (hd : Holds t.d (A.mat M M).det)
    (hout : Holds t.out (A.mat M M).det) : determinant t M A = (A.mat M M).det := by
  match M, hM, hF, hd, hout with
  | 1, _, hF, hd, hout =>
    unfold Holds at hd hout
    have h : Holds t.base ((A.mat 1 1) 0 0) := hF
    unfold Holds at h
    rw [Matrix.det_fin_one] at hd hout ⊢
    rw [determinant, compute]
    change cvt t.out (cvt t.d (cvt t.base ((A.mat 1 1) 0 0))) = _
    rw [h, hd, hout]
  | 2, _, hF, hd, hout =>
    unfold Holds at hd hout
    rw [determinant, compute_two A hF, hd, hout]
  | n + 3, _, hF, hd, hout =>
    unfold Holds at hd hout
    rw [determinant, compute_eq n A hF, hout, hd, hout]

/-- The same with complex numbers. -/
theorem C82_exact_complex {t : Types} (M : ℕ) (hM : 1 ≤ M) (A : Mem Cx) (hF : Fits t M (A.mat M M))
    (hd : Holds t.d (A.mat M M).det) (hout : Holds t.out (A.mat M M).det) :
    toC (determinant t M A) = ((A.mat M M).map toC).det := by
  rw [C82_exact M hM A hF hd hout, RingHom.map_det]; rfl

/-! ## Signed inputs never overflow the base type -/

theorem signed_bnd {fi : Fmt} (hS : fi.S = true) (hW : 1 ≤ fi.W) {x : ℚ} (h : fi.Rep x) :
    -2 ^ (fi.I - 1) ≤ x ∧ x < 2 ^ (fi.I - 1) := by
  have := ((Fmt.rep_iff hW x).mp h).1
  unfold Fmt.Bnd at this
  rwa [if_pos hS] at this

theorem mul_gt {m z w : ℚ} (hm : 0 < m) (hz : -m ≤ z ∧ z < m) (hw : -m ≤ w ∧ w < m) : -(m * m) < z * w := by
  rcases le_or_gt 0 w with h | h
  · have h1 := mul_le_mul_of_nonneg_right hz.1 h
    have h2 := mul_lt_mul_of_pos_left hw.2 hm
    linarith
  · have h1 := mul_lt_mul_of_neg_right hz.2 h
    have h2 := mul_le_mul_of_nonneg_left hw.1 hm.le
    linarith

theorem mul_le_sq {m z w : ℚ} (hm : 0 < m) (hz : -m ≤ z ∧ z < m) (hw : -m ≤ w ∧ w < m) : z * w ≤ m * m := by
  have := abs_mul z w
  have h3 := mul_le_mul (abs_le.mpr ⟨hz.1, hz.2.le⟩) (abs_le.mpr ⟨hw.1, hw.2.le⟩) (abs_nonneg _) hm.le
  linarith [le_abs_self (z * w)]

theorem gridC_rep {fi : Fmt} (hW : 1 ≤ fi.W) {z : Cx} (h : RepC fi z) : GridC fi.F z := by
  obtain ⟨r, hr⟩ := ((Fmt.rep_iff hW _).mp h.1).2
  obtain ⟨s, hs⟩ := ((Fmt.rep_iff hW _).mp h.2).2
  exact ⟨r, s, by ext; exact hr; exact hs⟩

theorem base_F {t : Types} {fi : Fmt} (hb : BaseOk t fi) : t.base.F = fi.F + fi.F := by
  rw [hb]; unfold Fmt.F; push_cast; ring

theorem base_I {t : Types} {fi : Fmt} (hb : BaseOk t fi) : (2 : ℚ) ^ (t.base.I - 1) = 4 * (2 ^ (fi.I - 1) * 2 ^ (fi.I - 1)) := by
  rw [hb, Fmt.z_add, show (4 : ℚ) = 2 ^ (2 : ℤ) by norm_num, Fmt.z_add]
  congr 1
  ring

/-- Signed inputs, of any rounding and overflow mode: the products and the determinant of size 2 fit the base type. -/
theorem C82_base_signed {t : Types} {fi : Fmt} (hb : BaseOk t fi) (hS : fi.S = true) (hW : 1 ≤ fi.W)
    (A : Matrix (Fin 2) (Fin 2) Cx) (hA : ∀ i j, RepC fi (A i j)) : Fits t 2 A := by
  have hbS : t.base.S = true := by rw [hb]
  have hbW : 1 ≤ t.base.W := by rw [hb]; simp
  have hm : (0 : ℚ) < 2 ^ (fi.I - 1) := Fmt.z_pos _
  have hI := base_I hb
  have hg := fun i j => gridC_rep hW (hA i j)
  have hre := fun i j => signed_bnd hS hW (hA i j).1
  have him := fun i j => signed_bnd hS hW (hA i j).2
  generalize (2 : ℚ) ^ (fi.I - 1) = m at hm hI hre him
  have g1 := (hg 0 0).mul (hg 1 1)
  have g2 := (hg 0 1).mul (hg 1 0)
  have lo := fun i j k l => mul_gt hm (hre i j) (hre k l)
  have lo' := fun i j k l => mul_gt hm (him i j) (him k l)
  have lo'' := fun i j k l => mul_gt hm (hre i j) (him k l)
  have hi := fun i j k l => mul_le_sq hm (hre i j) (hre k l)
  have hi' := fun i j k l => mul_le_sq hm (him i j) (him k l)
  have hi'' := fun i j k l => mul_le_sq hm (hre i j) (him k l)
  have hold : ∀ z : Cx, |z.re| < 4 * (m * m) → |z.im| < 4 * (m * m) → GridC (fi.F + fi.F) z → Holds t.base z := by
    intro z h1 h2 h3
    obtain ⟨g1, g2⟩ := grid_of (base_F hb).ge h3
    unfold Holds cvt
    rw [cvt_abs hbS hbW (by rwa [hI]) g1, cvt_abs hbS hbW (by rwa [hI]) g2]
  have re2 : ∀ i j k l, (A i j * A k l).re = (A i j).re * (A k l).re - (A i j).im * (A k l).im := by
    intro i j k l; rw [QuadraticAlgebra.re_mul]; ring
  have im2 : ∀ i j k l, (A i j * A k l).im = (A i j).re * (A k l).im + (A k l).re * (A i j).im := by
    intro i j k l; rw [QuadraticAlgebra.im_mul]; ring
  have hmm : 0 < m * m := mul_pos hm hm
  refine ⟨hold _ ?_ ?_ g1, hold _ ?_ ?_ g2, ?_⟩
  · rw [re2, abs_lt]
    constructor <;> linarith [lo 0 0 1 1, lo' 0 0 1 1, hi 0 0 1 1, hi' 0 0 1 1]
  · rw [im2, abs_lt]
    constructor <;> linarith [lo'' 0 0 1 1, lo'' 1 1 0 0, hi'' 0 0 1 1, hi'' 1 1 0 0]
  · rw [re2, abs_lt]
    constructor <;> linarith [lo 0 1 1 0, lo' 0 1 1 0, hi 0 1 1 0, hi' 0 1 1 0]
  · rw [im2, abs_lt]
    constructor <;> linarith [lo'' 0 1 1 0, lo'' 1 0 0 1, hi'' 0 1 1 0, hi'' 1 0 0 1]
  · rw [Matrix.det_fin_two]
    refine hold _ ?_ ?_ (by rw [sub_eq_add_neg]; exact g1.add g2.neg)
    · rw [QuadraticAlgebra.re_sub, re2, re2, abs_lt]
      constructor <;> linarith [lo 0 0 1 1, lo' 0 0 1 1, hi 0 0 1 1, hi' 0 0 1 1, lo 0 1 1 0, lo' 0 1 1 0, hi 0 1 1 0, hi' 0 1 1 0]
    · rw [QuadraticAlgebra.im_sub, im2, im2, abs_lt]
      constructor <;> linarith [lo'' 0 0 1 1, lo'' 1 1 0 0, hi'' 0 0 1 1, hi'' 1 1 0 0, lo'' 0 1 1 0, lo'' 1 0 0 1, hi'' 0 1 1 0, hi'' 1 0 0 1]

/-- Size 2, signed inputs: the determinant, converted to `d_type` and then to the output type. -/
theorem C82_signed_two {t : Types} {fi : Fmt} (hb : BaseOk t fi) (hS : fi.S = true) (hW : 1 ≤ fi.W) (A : Mem Cx)
    (hA : AllRep fi 2 A) : determinant t 2 A = cvt t.out (cvt t.d (A.mat 2 2).det) := by
  rw [determinant, compute_two A (C82_base_signed hb hS hW _ fun i j => hA i i.2 j j.2)]

/-- Size 1, signed inputs, default types: the element, converted to the output type. -/
theorem C82_signed_one {fi : Fmt} (fo : Fmt) (hS : fi.S = true) (hW : 1 ≤ fi.W) (hI : 0 ≤ fi.I) (hI' : fi.I ≤ fi.W)
    (A : Mem Cx) (hA : AllRep fi 1 A) : determinant (defaultTypes 1 fi fo) 1 A = cvt fo (A.mat 1 1).det := by
  have hr := hA 0 (by omega) 0 (by omega)
  have hz : Le (2 ^ (fi.I - 1)) (A 0 0) := by
    have h1 := signed_bnd hS hW hr.1
    have h2 := signed_bnd hS hW hr.2
    exact ⟨abs_le.mpr ⟨h1.1, h1.2.le⟩, abs_le.mpr ⟨h2.1, h2.2.le⟩⟩
  have hb : cvt (defaultTypes 1 fi fo).base (A 0 0) = A 0 0 := by
    refine cvt_le rfl (by simp [defaultTypes]) ?_ ?_ hz (gridC_rep hW hr)
    · simp only [defaultTypes]; unfold Fmt.F; push_cast; omega
    · have := Fmt.z_succ (fi.I - 1)
      have h0 := Fmt.z_pos (fi.I - 1)
      have h2 := Fmt.z_le (show fi.I - 1 + 1 ≤ (defaultTypes 1 fi fo).base.I - 1 by simp only [defaultTypes]; omega)
      linarith
  have hd : ∀ x, fi.Rep x → (defaultTypes 1 fi fo).d.cvt x = x := by
    intro x hx
    refine Fmt.cvt_rep (by simp [defaultTypes, hW]) (by simp [defaultTypes]) ?_
    obtain ⟨r, h0, h1, e⟩ := hx
    refine ⟨r, ?_, ?_, ?_⟩
    · simpa [defaultTypes, hS] using h0
    · simpa [defaultTypes, hS] using h1
    · rw [e]; simp [Fmt.val, Fmt.F, defaultTypes]
  rw [determinant, compute, hb, Matrix.det_fin_one]
  have : cvt (defaultTypes 1 fi fo).d (A 0 0) = A 0 0 := by
    unfold cvt; rw [hd _ hr.1, hd _ hr.2]
  rw [this]; rfl

/-! ## Any size, parts small enough for the internal types -/

theorem fits_bounded {t : Types} {fi : Fmt} (hb : BaseOk t fi) (hW : 1 ≤ fi.W) (hF : 0 ≤ fi.F) {M : ℕ} {K : ℚ} (hK0 : 0 ≤ K)
    (hbase : fi.S = true ∨ bnd K 2 < 2 ^ (2 * fi.I))
    (hall : ∀ f ∈ [t.out, t.c, t.temp, t.d], f.S = true ∧ 1 ≤ f.W ∧ M * fi.F ≤ f.F ∧
      ∀ k ≤ M, 1 ≤ k → bnd K k < 2 ^ (f.I - 1)) :
    ∀ k ≤ M, 2 ≤ k → ∀ A : Matrix (Fin k) (Fin k) Cx, (∀ i j, RepC fi (A i j) ∧ Le K (A i j)) → Fits t k A := by
  have hold : ∀ f ∈ [t.out, t.c, t.temp, t.d], ∀ k ≤ M, 1 ≤ k → ∀ z : Cx, Le (bnd K k) z → GridC (k * fi.F) z → Holds f z := by
    intro f hf k hk hk1 z hz hg
    obtain ⟨h1, h2, h4, h5⟩ := hall f hf
    refine cvt_le h1 h2 ?_ (h5 k hk hk1) hz hg
    refine le_trans ?_ h4
    exact mul_le_mul_of_nonneg_right (by exact_mod_cast hk) hF
  intro k
  induction k with
  | zero => intro _ h; omega
  | succ k ih =>
    intro hk h2 A hA
    match k, ih, hk, h2, A, hA with
    | 1, _, _, _, A, hA =>
      rcases hbase with hS | hB
      · exact C82_base_signed hb hS hW A fun i j => (hA i j).1
      · have hg := fun i j => gridC_rep hW (hA i j).1
        have hl := fun i j => (hA i j).2
        have hbS : t.base.S = true := by rw [hb]
        have hbW : 1 ≤ t.base.W := by rw [hb]; simp
        have hbI : bnd K 2 < 2 ^ (t.base.I - 1) := by rw [hb]; simpa using hB
        have hle : ∀ z, Le (2 * (K * K)) z → Le (bnd K 2) z := by
          intro z hz
          have e : bnd K 2 = 4 * (K * K) := by unfold bnd; norm_num [Nat.factorial]; ring
          have := mul_nonneg hK0 hK0
          rw [e]
          exact ⟨by linarith [hz.1], by linarith [hz.2]⟩
        have g1 := (hg 0 0).mul (hg 1 1)
        have g2 := (hg 0 1).mul (hg 1 0)
        refine ⟨cvt_le hbS hbW (base_F hb).ge hbI (hle _ ((hl 0 0).mul hK0 (hl 1 1))) g1,
          cvt_le hbS hbW (base_F hb).ge hbI (hle _ ((hl 0 1).mul hK0 (hl 1 0))) g2,
          cvt_le hbS hbW (base_F hb).ge hbI (det_bound hK0 1 A hl) ?_⟩
        rw [Matrix.det_fin_two, sub_eq_add_neg]
        exact g1.add g2.neg
    | k + 2, ih, hk, _, A, hA =>
      have hgd : ∀ j, GridC ((k + 2 : ℕ) * fi.F) (cofMinor A j).det := fun j => grid_det _ _ fun p q => gridC_rep hW (hA _ _).1
      have hbd : ∀ j, Le (bnd K (k + 2)) (cofMinor A j).det := fun j => det_bound hK0 (k + 1) _ fun p q => (hA _ _).2
      refine ⟨fun j => ⟨?_, ?_, fun _ => ?_, ih (by omega) (by omega) _ fun p q => hA _ _⟩, ?_⟩
      · exact hold _ (by simp) (k + 2) (by omega) (by omega) _ (hbd j) (hgd j)
      · rcases neg_one_pow_mul (j : ℕ) (cofMinor A j).det with e | e <;> rw [e]
        · exact hold _ (by simp) (k + 2) (by omega) (by omega) _ (hbd j) (hgd j)
        · exact hold _ (by simp) (k + 2) (by omega) (by omega) _ (hbd j).neg (hgd j).neg
      · exact hold _ (by simp) (k + 2) (by omega) (by omega) _ (hbd j) (hgd j)
      · intro m hm
        have hterm : ∀ j, Le (2 * (K * bnd K (k + 2))) (term A j) ∧ GridC ((k + 3 : ℕ) * fi.F) (term A j) := by
          intro j
          unfold term
          have h1 := (hA 0 j).2.mul hK0 (hbd j)
          have h2 := (gridC_rep hW (hA 0 j).1).mul (hgd j)
          rw [show fi.F + ((k + 2 : ℕ) : ℤ) * fi.F = ((k + 3 : ℕ) : ℤ) * fi.F by push_cast; ring] at h2
          rw [mul_assoc]
          rcases neg_one_pow_mul (j : ℕ) (A 0 j * (cofMinor A j).det) with e | e <;> rw [e]
          · exact ⟨h1, h2⟩
          · exact ⟨h1.neg, h2.neg⟩
        refine hold _ (by simp) (k + 3) (by omega) (by omega) _ ?_ (GridC.sum _ _ fun j _ => (hterm j).2)
        rw [bnd_succ]
        have := bnd_nonneg hK0 (k + 2)
        exact Le.sum (by positivity) _ _ fun j => (hterm j).1

/-- Any size `M ≥ 2`, signed or unsigned: if the parts of all entries are at most `K` in magnitude and `k!*2^(k-1)*K^k` is
below the range of the internal types and of the output type for every `k` from 1 to `M` (for unsigned inputs, for `k = 2` also
below that of the base type), the result is the determinant. -/
theorem C82_bounded {fi : Fmt} (fo : Fmt) (hW : 1 ≤ fi.W) (hF : 0 ≤ fi.F) {M : ℕ} (hM : 2 ≤ M) {K : ℚ} (hK0 : 0 ≤ K)
    (hbase : fi.S = true ∨ 2 * 2 * K ^ 2 < 2 ^ (2 * fi.I))
    (hK : ∀ k ≤ M, 1 ≤ k → k.factorial * 2 ^ (k - 1) * K ^ k < 2 ^ (M * fi.I - 1)) (hoS : fo.S = true) (hoW : 1 ≤ fo.W)
    (hoF : M * fi.F ≤ fo.F) (hoI : M * fi.I ≤ fo.I) (A : Mem Cx) (hA : AllRep fi M A)
    (hAK : ∀ i < M, ∀ j < M, |(A i j).re| ≤ K ∧ |(A i j).im| ≤ K) :
    determinant (defaultTypes M fi fo) M A = (A.mat M M).det := by
  have hMW : 1 ≤ M * fi.W := Nat.mul_pos (by omega) hW
  have hb : BaseOk (defaultTypes M fi fo) fi := rfl
  have hout : ∀ k ≤ M, 1 ≤ k → bnd K k < 2 ^ (fo.I - 1) := fun k hk h1 =>
    lt_of_lt_of_le (hK k hk h1) (Fmt.z_le (by omega))
  have hall : ∀ f ∈ [fo, (defaultTypes M fi fo).c, (defaultTypes M fi fo).temp, (defaultTypes M fi fo).d],
      f.S = true ∧ 1 ≤ f.W ∧ M * fi.F ≤ f.F ∧ ∀ k ≤ M, 1 ≤ k → bnd K k < 2 ^ (f.I - 1) := by
    intro f hf
    simp only [defaultTypes, List.mem_cons, List.not_mem_nil, or_false] at hf
    rcases hf with rfl | rfl | rfl | rfl
    · exact ⟨hoS, hoW, hoF, hout⟩
    · refine ⟨rfl, by simp only; omega, ?_, fun k hk h1 => lt_of_lt_of_le (hK k hk h1) (Fmt.z_le (by simp only; omega))⟩
      unfold Fmt.F; simp only; push_cast; linarith
    · exact ⟨rfl, hMW, by unfold Fmt.F; simp only; push_cast; linarith, hK⟩
    · exact ⟨rfl, hMW, by unfold Fmt.F; simp only; push_cast; linarith, hK⟩
  have hfit := fits_bounded hb hW hF hK0 (M := M) (hbase.imp_right fun h => by
    have e : bnd K 2 = 2 * 2 * K ^ 2 := by unfold bnd; norm_num [Nat.factorial]
    rw [e]; exact h) hall M le_rfl hM (A.mat M M) fun i j => ⟨hA i i.2 j j.2, hAK i i.2 j j.2⟩
  have hdet : ∀ f ∈ [fo, (defaultTypes M fi fo).c, (defaultTypes M fi fo).temp, (defaultTypes M fi fo).d],
      Holds f (A.mat M M).det := by
    intro f hf
    obtain ⟨h1, h2, h3, h4⟩ := hall f hf
    refine cvt_le h1 h2 h3 (h4 M le_rfl (by omega)) ?_ (grid_det M _ fun i j => gridC_rep hW (hA i i.2 j j.2))
    obtain ⟨n, rfl⟩ : ∃ n, M = n + 1 := ⟨M - 1, by omega⟩
    exact det_bound hK0 n _ fun i j => hAK i i.2 j j.2
  exact C82_exact M (by omega) A hfit (hdet _ (by simp)) (hdet fo (by simp))

/-! ## Where the result is not the determinant -/

def int2 : Fmt := ⟨2, 2, true, .TRN, .WRAP⟩
def uint2 : Fmt := ⟨2, 2, false, .TRN, .WRAP⟩
def int32 : Fmt := ⟨32, 32, true, .TRN, .WRAP⟩

def diag3 : Mem Cx := fun i j => if i = j then ⟨3, 3⟩ else 0
def full2 : Mem Cx := fun i j => if i = 1 ∧ j = 0 then ⟨1, 1⟩ else ⟨-2, -2⟩

/-- Unsigned inputs overflow the base type, which takes its overflow mode from the input: 18i wraps to -14i, and the result
has the wrong sign. -/
theorem C82_unsigned_two_wrong : (diag3.mat 2 2).det = ⟨0, 18⟩ ∧ compute (defaultTypes 2 uint2 int32) 2 diag3 = ⟨0, -14⟩ ∧
    determinant (defaultTypes 2 uint2 int32) 2 diag3 = ⟨0, -8⟩ := by
  refine ⟨?_, by decide +kernel, by decide +kernel⟩
  rw [Matrix.det_fin_two]; decide +kernel

/-- Signed inputs of size 2 saturate `d_type` although the output type is wide. -/
theorem C82_signed_two_wrong : AllRep int2 2 full2 ∧ (full2.mat 2 2).det = ⟨0, 12⟩ ∧
    determinant (defaultTypes 2 int2 int32) 2 full2 = ⟨0, 7⟩ := by
  refine ⟨?_, ?_, by decide +kernel⟩
  · intro i hi j hj
    unfold full2
    split_ifs
    · exact ⟨⟨1, by decide, by decide, by decide +kernel⟩, ⟨1, by decide, by decide, by decide +kernel⟩⟩
    · exact ⟨⟨-2, by decide, by decide, by decide +kernel⟩, ⟨-2, by decide, by decide, by decide +kernel⟩⟩
  · rw [Matrix.det_fin_two]; decide +kernel

/-! ## The hypotheses are met -/

def f85 : Fmt := ⟨8, 5, true, .TRN, .WRAP⟩
def u85 : Fmt := ⟨8, 5, false, .TRN, .SAT⟩
def o40 : Fmt := ⟨40, 25, true, .TRN, .WRAP⟩

def a3 : Mem Cx := fun i j => ⟨(i : ℚ) - 2 * j, if i = j then 1 / 2 else -3⟩

theorem a3_rep : AllRep f85 3 a3 := by
  have h : ∀ i < 3, ∀ j < 3, ∃ r s : ℤ, (-128 ≤ r ∧ r ≤ 127 ∧ -128 ≤ s ∧ s ≤ 127) ∧ a3 i j = ⟨r * 2 ^ (-3 : ℤ), s * 2 ^ (-3 : ℤ)⟩ := by
    intro i _ j _
    refine ⟨8 * (i - 2 * j), if i = j then 4 else -24, by split_ifs <;> omega, ?_⟩
    unfold a3
    split_ifs <;> norm_num <;> ring
  intro i hi j hj
  obtain ⟨r, s, ⟨h1, h2, h3, h4⟩, e⟩ := h i hi j hj
  rw [e]
  exact ⟨⟨r, by simpa [minRaw, f85] using h1, by simpa [maxRaw, f85] using h2, by simp [Fmt.val, Fmt.F, f85]⟩,
    ⟨s, by simpa [minRaw, f85] using h3, by simpa [maxRaw, f85] using h4, by simp [Fmt.val, Fmt.F, f85]⟩⟩

example : determinant (defaultTypes 3 f85 o40) 3 a3 = (a3.mat 3 3).det := by
  refine C82_bounded o40 (by decide) (by decide) (by norm_num) (K := 4) (by norm_num) (Or.inl rfl) ?_ rfl (by decide)
    (by decide) (by decide) a3 a3_rep ?_
  · intro k hk h1
    interval_cases k <;> norm_num [f85, Nat.factorial]
  · intro i hi j hj
    interval_cases i <;> interval_cases j <;> norm_num [a3, abs_le]

/-- The determinant of the example is not real. -/
example : (a3.mat 3 3).det.im ≠ 0 := by
  simp only [Matrix.det_fin_three]
  decide +kernel

example : determinant (defaultTypes 2 f85 o40) 2 a3 = cvt o40 (cvt (defaultTypes 2 f85 o40).d (a3.mat 2 2).det) :=
  C82_signed_two (fi := f85) (show BaseOk (defaultTypes 2 f85 o40) f85 from rfl) rfl (by decide) a3 fun i hi j hj => a3_rep i (by omega) j (by omega)

example : determinant (defaultTypes 1 f85 o40) 1 a3 = cvt o40 (a3.mat 1 1).det :=
  C82_signed_one o40 rfl (by decide) (by decide) (by decide) a3 fun i hi j hj => a3_rep i (by omega) j (by omega)

/-- An internal type of the user, and a size for which every condition is checked one by one. -/
def user : Fmt := ⟨20, 12, true, .TRN, .SAT_SYM⟩

example : toC (determinant (overrideTypes f85 o40 user) 2 a3) = ((a3.mat 2 2).map toC).det := by
  have hd : (a3.mat 2 2).det = ⟨43 / 4, -7 / 2⟩ := by rw [Matrix.det_fin_two]; decide +kernel
  refine C82_exact_complex 2 (by norm_num) a3 ⟨?_, ?_, ?_⟩ ?_ ?_
  · unfold Holds; decide +kernel
  · unfold Holds; decide +kernel
  all_goals rw [hd]; unfold Holds; decide +kernel

/-- Unsigned inputs. -/
example : determinant (defaultTypes 2 u85 o40) 2 (fun i j => ⟨i + 1 / 2, j⟩) =
    (Mem.mat 2 2 fun i j => (⟨i + 1 / 2, j⟩ : Cx)).det := by
  refine C82_bounded o40 (by decide) (by decide) (by norm_num) (K := 2) (by norm_num) (Or.inr (by norm_num [u85])) ?_ rfl
    (by decide) (by decide) (by decide) _ ?_ ?_
  · intro k hk h1
    interval_cases k <;> norm_num [u85, Nat.factorial]
  · intro i hi j hj
    refine ⟨⟨8 * i + 4, ?_, ?_, ?_⟩, ⟨8 * j, ?_, ?_, ?_⟩⟩
    · simp [minRaw, u85]; omega
    · simp [maxRaw, u85]; omega
    · simp [Fmt.val, Fmt.F, u85]; ring
    · simp [minRaw, u85]
    · simp [maxRaw, u85]; omega
    · simp [Fmt.val, Fmt.F, u85]; ring
  · intro i hi j hj
    interval_cases i <;> interval_cases j <;> norm_num [abs_le]

end Props.DetComplex
