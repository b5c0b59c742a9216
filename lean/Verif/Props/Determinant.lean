import Verif.Proof.Determinant
import Mathlib.Tactic.NormNum
import Mathlib.Tactic.IntervalCases
import Mathlib.LinearAlgebra.Matrix.AbsoluteValue

/-! # C19: ac_determinant -/

namespace Props.Determinant
open Ac Model.Determinant

/-- A type holds a value unchanged. -/
def Holds (f : Fmt) (x : ℚ) : Prop := f.cvt x = x

/-- The minor of `A` without the first row and column `j`. -/
abbrev cofMinor {n : ℕ} (A : Matrix (Fin (n + 1)) (Fin (n + 1)) ℚ) (j : Fin (n + 1)) : Matrix (Fin n) (Fin n) ℚ :=
  A.submatrix Fin.succ j.succAbove

/-- The `j`-th term of the expansion along the first row. -/
def term {n : ℕ} (A : Matrix (Fin (n + 1)) (Fin (n + 1)) ℚ) (j : Fin (n + 1)) : ℚ :=
  (-1) ^ (j : ℕ) * A 0 j * (cofMinor A j).det

/-- The intermediate values of the expansion fit the internal types: every minor of size 2 or more in `temp`, with
either sign in `c`, every minor of size 3 or more also in `out` (in which the recursion returns it), and every partial
sum of the expansion in `d`. -/
def Fits (t : Types) : (M : ℕ) → Matrix (Fin M) (Fin M) ℚ → Prop
  | M + 3, A => (∀ j, Holds t.temp (cofMinor A j).det ∧ Holds t.c ((-1) ^ (j : ℕ) * (cofMinor A j).det) ∧
      (1 ≤ M → Holds t.out (cofMinor A j).det) ∧ Fits t (M + 2) (cofMinor A j)) ∧
      ∀ m ≤ M + 3, Holds t.d (∑ j : Fin (M + 3) with j.1 < m, term A j)
  | _, _ => True

/-- The base type of the code, for inputs of type `fi`. -/
def BaseOk (t : Types) (fi : Fmt) : Prop := t.base = ⟨2 * fi.W + 1, 2 * fi.I + 1, true, .RND, .SAT⟩

/-- Every element is a value of the input type. -/
def AllRep (f : Fmt) (M : ℕ) (A : Mem ℚ) : Prop := ∀ i < M, ∀ j < M, f.Rep (A i j)

theorem compute_two {t : Types} {fi : Fmt} (hW : 1 ≤ fi.W) (hb : BaseOk t fi) (A : Mem ℚ) (hA : AllRep fi 2 A) :
    compute t 2 A = (A.mat 2 2).det := by
  have h00 := hA 0 (by omega) 0 (by omega)
  have h01 := hA 0 (by omega) 1 (by omega)
  have h10 := hA 1 (by omega) 0 (by omega)
  have h11 := hA 1 (by omega) 1 (by omega)
  have hbW : 1 ≤ t.base.W := by rw [hb]; simp
  have hO : t.base.O ≠ .SAT_SYM := by rw [hb]; simp
  rw [compute, Fmt.cvt_rep hbW hO (Proof.Determinant.base_exact2 hW hb h00 h11),
    Fmt.cvt_rep hbW hO (Proof.Determinant.base_exact2 hW hb h01 h10),
    Fmt.cvt_rep hbW hO (Proof.Determinant.base_exact hW hb h00 h11 h01 h10), Matrix.det_fin_two]
  rfl

theorem sum_lt_succ {n : ℕ} (g : Fin n → ℚ) {m : ℕ} (hm : m < n) :
    ∑ j : Fin n with j.1 < m + 1, g j = ∑ j : Fin n with j.1 < m, g j + g ⟨m, hm⟩ := by
  have : (Finset.univ.filter fun j : Fin n => j.1 < m + 1) =
      insert ⟨m, hm⟩ (Finset.univ.filter fun j : Fin n => j.1 < m) := by
    ext j
    simp only [Finset.mem_filter, Finset.mem_univ, true_and, Finset.mem_insert, Fin.ext_iff]
    omega
  rw [this, Finset.sum_insert (by simp), add_comm]

theorem det_eq_terms {n : ℕ} (A : Matrix (Fin (n + 1)) (Fin (n + 1)) ℚ) :
    A.det = ∑ j : Fin (n + 1) with j.1 < n + 1, term A j := by
  rw [Matrix.det_succ_row_zero]
  have : (Finset.univ.filter fun j : Fin (n + 1) => j.1 < n + 1) = Finset.univ := by ext j; simp; omega
  rw [this]; rfl

/-- What the recursion returns for size 3 and more: the determinant, converted to the caller's output type. -/
theorem compute_eq {t : Types} {fi : Fmt} (hW : 1 ≤ fi.W) (hb : BaseOk t fi) :
    ∀ (M : ℕ) (A : Mem ℚ), AllRep fi (M + 3) A → Fits t (M + 3) (A.mat (M + 3) (M + 3)) →
      compute t (M + 3) A = t.out.cvt (A.mat (M + 3) (M + 3)).det := by
  intro M
  induction M with
  | zero =>
    intro A hA hF
    obtain ⟨h1, h2⟩ := hF
    have hc : ∀ j : Fin 3, compute t 2 (minor A j) = (cofMinor (A.mat 3 3) j).det := by
      intro j
      rw [compute_two hW hb _ (Proof.Determinant.rep_minor hA j), Proof.Determinant.minor_mat A 2 j]
    rw [compute, det_eq_terms]
    congr 1
    have key : ∀ m ≤ 3, forUp (fun j d => t.d.cvt (d + A 0 j * t.c.cvt ((-1) ^ j * t.temp.cvt (compute t 2 (minor A j))))) m
        (t.d.cvt (0 : ℚ)) = ∑ j : Fin 3 with j.1 < m, term (A.mat 3 3) j := by
      intro m hm
      induction m with
      | zero => have := h2 0 (by omega); simpa [Holds, forUp] using this
      | succ m ih =>
        have hmc := hc ⟨m, by omega⟩
        obtain ⟨ht, hcc, _, _⟩ := h1 ⟨m, by omega⟩
        unfold Holds at ht hcc
        simp only at hmc hcc
        have h3 := h2 (m + 1) hm
        unfold Holds at h3
        rw [sum_lt_succ _ (show m < 3 by omega)] at h3 ⊢
        rw [forUp, ih (by omega), hmc, ht, hcc]
        rw [← h3]
        congr 2
        unfold term Mem.mat
        simp only [Fin.val_zero]
        ring
    exact key 3 le_rfl
  | succ M ih =>
    intro A hA hF
    obtain ⟨h1, h2⟩ := hF
    have hc : ∀ j : Fin (M + 4), compute t (M + 3) (minor A j) = (cofMinor (A.mat (M + 4) (M + 4)) j).det := by
      intro j
      rw [ih _ (Proof.Determinant.rep_minor hA j) (by rw [Proof.Determinant.minor_mat]; exact (h1 j).2.2.2),
        Proof.Determinant.minor_mat A (M + 3) j]
      exact (h1 j).2.2.1 (by omega)
    rw [compute, det_eq_terms]
    congr 1
    have key : ∀ m ≤ M + 4, forUp (fun j d => t.d.cvt (d + A 0 j * t.c.cvt ((-1) ^ j * t.temp.cvt (compute t (M + 3) (minor A j))))) m
        (t.d.cvt (0 : ℚ)) = ∑ j : Fin (M + 4) with j.1 < m, term (A.mat (M + 4) (M + 4)) j := by
      intro m hm
      induction m with
      | zero => have := h2 0 (by omega); simpa [Holds, forUp] using this
      | succ m ih' =>
        have hmc := hc ⟨m, by omega⟩
        obtain ⟨ht, hcc, _, _⟩ := h1 ⟨m, by omega⟩
        unfold Holds at ht hcc
        simp only at hmc hcc
        have h3 := h2 (m + 1) hm
        unfold Holds at h3
        rw [sum_lt_succ _ (show m < M + 4 by omega)] at h3 ⊢
        rw [forUp, ih' (by omega), hmc, ht, hcc]
        rw [← h3]
        congr 2
        unfold term Mem.mat
        simp only [Fin.val_zero]
        ring
    exact key (M + 4) le_rfl

/-- For every size from 3 on, when the intermediate values and the determinant fit the types, the result is the
determinant. -/
theorem C19_exact {t : Types} {fi : Fmt} (hW : 1 ≤ fi.W) (hb : BaseOk t fi) (M : ℕ) (hM : 3 ≤ M) (A : Mem ℚ)
    (hA : AllRep fi M A) (hF : Fits t M (A.mat M M)) (hout : Holds t.out (A.mat M M).det) :
    determinant t M A = (A.mat M M).det := by
  obtain ⟨n, rfl⟩ : ∃ n, M = n + 3 := ⟨M - 3, by omega⟩
  have hd : Holds t.d (A.mat (n + 3) (n + 3)).det := by
    have := hF.2 (n + 3) le_rfl
    rwa [← det_eq_terms] at this
  unfold Holds at hout hd
  rw [determinant, compute_eq hW hb n A hA hF, hout, hd, hout]

/-- Size 1 and 2: the determinant converted to `d_type` and then to the output type, for every input type. -/
theorem C19_one {t : Types} {fi : Fmt} (hW : 1 ≤ fi.W) (hI : 0 ≤ fi.I) (hI' : fi.I ≤ fi.W) (hb : BaseOk t fi) (A : Mem ℚ)
    (hA : AllRep fi 1 A) : determinant t 1 A = t.out.cvt (t.d.cvt (A.mat 1 1).det) := by
  have hr := hA 0 (by omega) 0 (by omega)
  have hbW : 1 ≤ t.base.W := by rw [hb]; simp
  have hO : t.base.O ≠ .SAT_SYM := by rw [hb]; simp
  have hrep : t.base.Rep (A 0 0) := by
    rw [Fmt.rep_iff hW] at hr
    rw [Fmt.rep_iff hbW]
    refine ⟨?_, Fmt.grid_mono (by rw [hb]; unfold Fmt.F; simp only; push_cast; omega) hr.2⟩
    have hb1 := hr.1
    unfold Fmt.Bnd at hb1 ⊢
    rw [if_pos (by rw [hb])]
    have e : t.base.I - 1 = fi.I + fi.I := by rw [hb]; simp only; ring
    rw [e]
    have h1 := Fmt.z_le (show fi.I ≤ fi.I + fi.I by omega)
    have h2 := Fmt.z_le (show fi.I - 1 ≤ fi.I + fi.I by omega)
    have h3 := Fmt.z_pos (fi.I + fi.I)
    split_ifs at hb1 <;> constructor <;> linarith [hb1.1, hb1.2]
  rw [determinant, compute, Fmt.cvt_rep hbW hO hrep, Matrix.det_fin_one]
  rfl

theorem C19_two {t : Types} {fi : Fmt} (hW : 1 ≤ fi.W) (hb : BaseOk t fi) (A : Mem ℚ) (hA : AllRep fi 2 A) :
    determinant t 2 A = t.out.cvt (t.d.cvt (A.mat 2 2).det) := by
  rw [determinant, compute_two hW hb A hA]

/-! ## Signed inputs up to 3x3 never saturate -/

theorem default_base (M : ℕ) (fi fo : Fmt) : BaseOk (defaultTypes M fi fo) fi := rfl

theorem C19_signed_one {fi : Fmt} (fo : Fmt) (hS : fi.S = true) (hW : 1 ≤ fi.W) (hI : 0 ≤ fi.I) (hI' : fi.I ≤ fi.W)
    (A : Mem ℚ) (hA : AllRep fi 1 A) : determinant (defaultTypes 1 fi fo) 1 A = fo.cvt (A.mat 1 1).det := by
  rw [C19_one hW hI hI' (default_base 1 fi fo) A hA, Matrix.det_fin_one]
  have hr := hA 0 (by omega) 0 (by omega)
  have : (defaultTypes 1 fi fo).d.Rep (A 0 0) := by
    obtain ⟨r, h0, h1, e⟩ := hr
    refine ⟨r, ?_, ?_, ?_⟩
    · simpa [defaultTypes, hS] using h0
    · simpa [defaultTypes, hS] using h1
    · rw [e]; simp [Fmt.val, Fmt.F, defaultTypes]
  have e := Fmt.cvt_rep (by simp [defaultTypes, hW]) (by simp [defaultTypes]) this
  rw [Mem.mat]; simp only [Fin.val_zero]
  rw [e]; rfl

theorem signed_bnd {fi : Fmt} (hS : fi.S = true) (hW : 1 ≤ fi.W) {x : ℚ} (h : fi.Rep x) :
    -2 ^ (fi.I - 1) ≤ x ∧ x < 2 ^ (fi.I - 1) := by
  have := ((Fmt.rep_iff hW x).mp h).1
  unfold Fmt.Bnd at this
  rwa [if_pos hS] at this

theorem mul_gt {m z w : ℚ} (hm : 0 < m) (hz : -m ≤ z) (hz' : z < m) (hw : -m ≤ w) (hw' : w < m) : -(m * m) < z * w := by
  rcases le_or_gt 0 w with h | h
  · have h1 := mul_le_mul_of_nonneg_right hz h
    have h2 := mul_lt_mul_of_pos_left hw' hm
    linarith
  · have h1 := mul_lt_mul_of_neg_right hz' h
    have h2 := mul_le_mul_of_nonneg_left hw hm.le
    linarith

theorem mul_le_sq {m z w : ℚ} (hm : 0 < m) (hz : -m ≤ z) (hz' : z < m) (hw : -m ≤ w) (hw' : w < m) : z * w ≤ m * m := by
  have := abs_mul z w
  have h1 : |z| ≤ m := abs_le.mpr ⟨hz, hz'.le⟩
  have h2 : |w| ≤ m := abs_le.mpr ⟨hw, hw'.le⟩
  have h3 := mul_le_mul h1 h2 (abs_nonneg _) hm.le
  linarith [le_abs_self (z * w)]

/-- A 2x2 determinant of half-open symmetric entries stays strictly below twice the square. -/
theorem det2_lt {m a b c d : ℚ} (hm : 0 < m) (ha : -m ≤ a ∧ a < m) (hb : -m ≤ b ∧ b < m) (hc : -m ≤ c ∧ c < m)
    (hd : -m ≤ d ∧ d < m) : |a * d - b * c| < 2 * (m * m) := by
  rw [abs_lt]
  have h1 := mul_gt hm ha.1 ha.2 hd.1 hd.2
  have h2 := mul_gt hm hb.1 hb.2 hc.1 hc.2
  have h3 := mul_le_sq hm ha.1 ha.2 hd.1 hd.2
  have h4 := mul_le_sq hm hb.1 hb.2 hc.1 hc.2
  constructor <;> linarith

theorem grid_det {f g : Fmt} {n : ℕ} (hF : g.F = n * f.F) (A : Matrix (Fin n) (Fin n) ℚ) (hA : ∀ i j, f.Grid (A i j)) :
    g.Grid A.det := by
  choose Z hZ using hA
  have e : A = (2 : ℚ) ^ (-f.F) • (Matrix.of Z).map (Int.castRingHom ℚ) := by
    ext i j
    rw [hZ i j]
    simp [Fmt.val, mul_comm]
  refine ⟨(Matrix.of Z).det, ?_⟩
  rw [e, Matrix.det_smul, ← RingHom.mapMatrix_apply, ← RingHom.map_det]
  simp only [Fintype.card_fin, eq_intCast, Fmt.val, hF]
  rw [mul_comm, ← zpow_natCast, ← zpow_mul]
  congr 2
  ring

theorem C19_signed_two {fi : Fmt} (fo : Fmt) (hS : fi.S = true) (hW : 1 ≤ fi.W) (A : Mem ℚ) (hA : AllRep fi 2 A) :
    determinant (defaultTypes 2 fi fo) 2 A = fo.cvt (A.mat 2 2).det := by
  rw [C19_two hW (default_base 2 fi fo) A hA]
  have hrep : (defaultTypes 2 fi fo).d.Rep (A.mat 2 2).det := by
    rw [Fmt.rep_iff (by simp only [defaultTypes]; omega)]
    refine ⟨?_, grid_det (f := fi) (by simp only [defaultTypes, Fmt.F]; push_cast; ring) _ fun i j =>
      ((Fmt.rep_iff hW _).mp (hA i i.2 j j.2)).2⟩
    have h := det2_lt (Fmt.z_pos (fi.I - 1)) (signed_bnd hS hW (hA 0 (by omega) 0 (by omega)))
      (signed_bnd hS hW (hA 0 (by omega) 1 (by omega))) (signed_bnd hS hW (hA 1 (by omega) 0 (by omega)))
      (signed_bnd hS hW (hA 1 (by omega) 1 (by omega)))
    rw [Fmt.z_add, ← Fmt.z_succ, abs_lt] at h
    unfold Fmt.Bnd
    rw [if_pos (by simp [defaultTypes]), Matrix.det_fin_two]
    have e : (defaultTypes 2 fi fo).d.I - 1 = fi.I - 1 + (fi.I - 1) + 1 := by simp only [defaultTypes]; push_cast; ring
    rw [e]
    exact ⟨h.1.le, h.2⟩
  rw [Fmt.cvt_rep (by simp only [defaultTypes]; omega) (by simp [defaultTypes]) hrep]
  rfl

/-- Sum of the magnitudes of the three 2x2 minors of two rows. -/
theorem minors_le {m p q s x y z : ℚ} (hp : |p| ≤ m) (hq : |q| ≤ m) (hs : |s| ≤ m) (hx : |x| ≤ m) (hy : |y| ≤ m)
    (hz : |z| ≤ m) : |q * z - s * y| + |p * z - s * x| + |p * y - q * x| ≤ 4 * (m * m) := by
  have hm : 0 ≤ m := (abs_nonneg p).trans hp
  rw [abs_le] at hp hq hs
  have key : ∀ a b c : ℚ, |a| ≤ 1 → |b| ≤ 1 → |c| ≤ 1 → |a| = 1 → |b| = 1 → |c| = 1 →
      |b * s - c * q| + |a * s - c * p| + |a * q - b * p| ≤ 4 * m := by
    intro a b c _ _ _ ha hb hc
    rcases eq_or_eq_neg_of_abs_eq ha with rfl | rfl <;> rcases eq_or_eq_neg_of_abs_eq hb with rfl | rfl <;>
      rcases eq_or_eq_neg_of_abs_eq hc with rfl | rfl <;>
      (rcases abs_cases (_ * s - _ * q) with ⟨h1, _⟩ | ⟨h1, _⟩ <;> rw [h1] <;>
       rcases abs_cases (_ * s - _ * p) with ⟨h2, _⟩ | ⟨h2, _⟩ <;> rw [h2] <;>
       rcases abs_cases (_ * q - _ * p) with ⟨h3, _⟩ | ⟨h3, _⟩ <;> rw [h3] <;> linarith)
  have hsgn : ∀ v : ℚ, ∃ σ : ℚ, |σ| = 1 ∧ |v| = σ * v := by
    intro v
    rcases abs_cases v with ⟨h, _⟩ | ⟨h, _⟩
    · exact ⟨1, by norm_num, by rw [h]; ring⟩
    · exact ⟨-1, by norm_num, by rw [h]; ring⟩
  obtain ⟨a, ha, ea⟩ := hsgn (q * z - s * y)
  obtain ⟨b, hb, eb⟩ := hsgn (p * z - s * x)
  obtain ⟨c, hc, ec⟩ := hsgn (p * y - q * x)
  rw [ea, eb, ec]
  have e : a * (q * z - s * y) + b * (p * z - s * x) + c * (p * y - q * x) =
      x * (-(b * s) - c * q) + y * (c * p - a * s) + z * (a * q + b * p) := by ring
  rw [e]
  have hk := key a (-b) c ha.le (by rw [abs_neg]; exact hb.le) hc.le ha (by rw [abs_neg]; exact hb) hc
  have t1 : x * (-(b * s) - c * q) ≤ m * |-b * s - c * q| := by
    rw [show -(b * s) - c * q = -b * s - c * q by ring]
    exact (le_abs_self _).trans (by rw [abs_mul]; exact mul_le_mul_of_nonneg_right hx (abs_nonneg _))
  have t2 : y * (c * p - a * s) ≤ m * |a * s - c * p| := by
    rw [abs_sub_comm]
    exact (le_abs_self _).trans (by rw [abs_mul]; exact mul_le_mul_of_nonneg_right hy (abs_nonneg _))
  have t3 : z * (a * q + b * p) ≤ m * |a * q - -b * p| := by
    rw [show a * q + b * p = a * q - -b * p by ring]
    exact (le_abs_self _).trans (by rw [abs_mul]; exact mul_le_mul_of_nonneg_right hz (abs_nonneg _))
  have := mul_le_mul_of_nonneg_left hk hm
  linarith

/-- If the value of an expansion reaches the bound, the row holds the most negative number only. -/
theorem row_extreme {m a b c u v w : ℚ} (hm : 0 < m) (ha : -m ≤ a ∧ a < m) (hb : -m ≤ b ∧ b < m) (hc : -m ≤ c ∧ c < m)
    (hu : |u| < 2 * (m * m)) (hv : |v| < 2 * (m * m)) (hw : |w| < 2 * (m * m)) (hs : |u| + |v| + |w| ≤ 4 * (m * m))
    (h : 4 * (m * m * m) ≤ |a * u + b * v + c * w|) : a = -m ∧ b = -m ∧ c = -m := by
  have ha1 : |a| ≤ m := abs_le.mpr ⟨ha.1, ha.2.le⟩
  have hb1 : |b| ≤ m := abs_le.mpr ⟨hb.1, hb.2.le⟩
  have hc1 : |c| ≤ m := abs_le.mpr ⟨hc.1, hc.2.le⟩
  have htri : |a * u + b * v + c * w| ≤ |a| * |u| + |b| * |v| + |c| * |w| := by
    rw [← abs_mul, ← abs_mul, ← abs_mul]
    exact (abs_add_le _ _).trans (by linarith [abs_add_le (a * u) (b * v)])
  have hmul := mul_le_mul_of_nonneg_left hs hm.le
  have na := mul_nonneg (sub_nonneg.mpr ha1) (abs_nonneg u)
  have nb := mul_nonneg (sub_nonneg.mpr hb1) (abs_nonneg v)
  have nc := mul_nonneg (sub_nonneg.mpr hc1) (abs_nonneg w)
  have hu' := mul_lt_mul_of_pos_left hu hm
  have hv' := mul_lt_mul_of_pos_left hv hm
  have hw' := mul_lt_mul_of_pos_left hw hm
  have fin : ∀ x y : ℚ, -m ≤ x → x < m → |x| ≤ m → (m - |x|) * |y| = 0 → y ≠ 0 → x = -m := by
    intro x y h1 h2 h3 h4 h5
    rcases mul_eq_zero.mp h4 with h6 | h6
    · rcases abs_cases x with ⟨h7, _⟩ | ⟨h7, _⟩ <;> linarith
    · exact absurd (abs_eq_zero.mp h6) h5
  have za : (m - |a|) * |u| = 0 := by linarith
  have zb : (m - |b|) * |v| = 0 := by linarith
  have zc : (m - |c|) * |w| = 0 := by linarith
  refine ⟨fin a u ha.1 ha.2 ha1 za ?_, fin b v hb.1 hb.2 hb1 zb ?_, fin c w hc.1 hc.2 hc1 zc ?_⟩
  · rintro rfl; rw [abs_zero] at *; linarith
  · rintro rfl; rw [abs_zero] at *; linarith
  · rintro rfl; rw [abs_zero] at *; linarith

/-- A 3x3 determinant of half-open symmetric entries stays strictly below four times the cube. -/
theorem det3_lt {m : ℚ} (hm : 0 < m) (A : Matrix (Fin 3) (Fin 3) ℚ) (hA : ∀ i j, -m ≤ A i j ∧ A i j < m) :
    |A.det| < 4 * (m * m * m) := by
  by_contra hcon
  rw [not_lt] at hcon
  have hab : ∀ i j, |A i j| ≤ m := fun i j => abs_le.mpr ⟨(hA i j).1, (hA i j).2.le⟩
  have d2 : ∀ i j k l i' j' k' l', |A i j * A k l - A i' j' * A k' l'| < 2 * (m * m) := fun i j k l i' j' k' l' =>
    det2_lt hm (hA i j) (hA i' j') (hA k' l') (hA k l)
  have e0 : A.det = A 0 0 * (A 1 1 * A 2 2 - A 1 2 * A 2 1) + A 0 1 * -(A 1 0 * A 2 2 - A 1 2 * A 2 0) +
      A 0 2 * (A 1 0 * A 2 1 - A 1 1 * A 2 0) := by rw [Matrix.det_fin_three]; ring
  have e1 : A.det = A 1 0 * -(A 0 1 * A 2 2 - A 0 2 * A 2 1) + A 1 1 * (A 0 0 * A 2 2 - A 0 2 * A 2 0) +
      A 1 2 * -(A 0 0 * A 2 1 - A 0 1 * A 2 0) := by rw [Matrix.det_fin_three]; ring
  have r0 := row_extreme hm (hA 0 0) (hA 0 1) (hA 0 2) (d2 1 1 2 2 1 2 2 1) (by rw [abs_neg]; exact d2 1 0 2 2 1 2 2 0)
    (d2 1 0 2 1 1 1 2 0) (by rw [abs_neg]; exact minors_le (hab 1 0) (hab 1 1) (hab 1 2) (hab 2 0) (hab 2 1) (hab 2 2))
    (by rw [← e0]; exact hcon)
  have r1 := row_extreme hm (hA 1 0) (hA 1 1) (hA 1 2) (by rw [abs_neg]; exact d2 0 1 2 2 0 2 2 1) (d2 0 0 2 2 0 2 2 0)
    (by rw [abs_neg]; exact d2 0 0 2 1 0 1 2 0)
    (by rw [abs_neg, abs_neg]; exact minors_le (hab 0 0) (hab 0 1) (hab 0 2) (hab 2 0) (hab 2 1) (hab 2 2))
    (by rw [← e1]; exact hcon)
  rw [e0, r0.1, r0.2.1, r0.2.2, r1.1, r1.2.1, r1.2.2] at hcon
  have : |-m * (-m * A 2 2 - -m * A 2 1) + -m * -(-m * A 2 2 - -m * A 2 0) + -m * (-m * A 2 1 - -m * A 2 0)| = 0 := by
    rw [abs_eq_zero]; ring
  rw [this] at hcon
  have := mul_pos (mul_pos hm hm) hm
  linarith

/-- Signed 3x3 inputs never saturate, for every width with `0 ≤ I ≤ W`. -/
theorem fits_signed_three {fi : Fmt} (fo : Fmt) (hS : fi.S = true) (hW : 1 ≤ fi.W) (hI : 0 ≤ fi.I) (hI' : fi.I ≤ fi.W)
    (A : Mem ℚ) (hA : AllRep fi 3 A) : Fits (defaultTypes 3 fi fo) 3 (A.mat 3 3) := by
  have hbd : ∀ i j, -2 ^ (fi.I - 1) ≤ A.mat 3 3 i j ∧ A.mat 3 3 i j < 2 ^ (fi.I - 1) := fun i j =>
    signed_bnd hS hW (hA i i.2 j j.2)
  have hgr : ∀ i j, fi.Grid (A.mat 3 3 i j) := fun i j => ((Fmt.rep_iff hW _).mp (hA i i.2 j j.2)).2
  have hm := Fmt.z_pos (fi.I - 1)
  have e2 : 2 * ((2 : ℚ) ^ (fi.I - 1) * 2 ^ (fi.I - 1)) = 2 ^ (2 * fi.I - 1) := by
    rw [Fmt.z_add, ← Fmt.z_succ]; congr 1; ring
  have e3 : 4 * ((2 : ℚ) ^ (fi.I - 1) * 2 ^ (fi.I - 1) * 2 ^ (fi.I - 1)) = 2 ^ (3 * fi.I - 1) := by
    rw [Fmt.z_add, Fmt.z_add, show (4 : ℚ) = 2 ^ (2 : ℤ) by norm_num, Fmt.z_add]; congr 1; ring
  have hmin : ∀ j, |(cofMinor (A.mat 3 3) j).det| < 2 ^ (2 * fi.I - 1) := by
    intro j
    rw [← e2, Matrix.det_fin_two]
    exact det2_lt hm (hbd _ _) (hbd _ _) (hbd _ _) (hbd _ _)
  have hterm : ∀ j, |term (A.mat 3 3) j| < 2 ^ (3 * fi.I - 2) := by
    intro j
    unfold term
    rw [abs_mul, abs_mul, abs_pow, abs_neg, abs_one, one_pow, one_mul]
    have h1 : |A.mat 3 3 0 j| ≤ 2 ^ (fi.I - 1) := abs_le.mpr ⟨(hbd 0 j).1, (hbd 0 j).2.le⟩
    have h2 := mul_le_mul_of_nonneg_right h1 (abs_nonneg (cofMinor (A.mat 3 3) j).det)
    have h3 := mul_lt_mul_of_pos_left (hmin j) hm
    rw [Fmt.z_add, show fi.I - 1 + (2 * fi.I - 1) = 3 * fi.I - 2 by ring] at h3
    linarith
  have holds : ∀ f : Fmt, f.S = true → 1 ≤ f.W → f.O = .SAT → ∀ x, |x| < 2 ^ (f.I - 1) → f.Grid x → Holds f x := by
    intro f hfS hfW hO x hx hg
    refine Fmt.cvt_rep hfW (by rw [hO]; simp) ((Fmt.rep_iff hfW x).mpr ⟨?_, hg⟩)
    unfold Fmt.Bnd
    rw [if_pos hfS]
    exact ⟨(abs_lt.mp hx).1.le, (abs_lt.mp hx).2⟩
  let g2 : Fmt := ⟨2 * fi.W, 2 * fi.I, true, .TRN, .WRAP⟩
  let g3 : Fmt := ⟨3 * fi.W, 3 * fi.I, true, .RND, .SAT⟩
  have hg2 : g2.F = (2 : ℕ) * fi.F := by simp only [g2, Fmt.F]; push_cast; ring
  have hg3 : g3.F = (3 : ℕ) * fi.F := by simp only [g3, Fmt.F]; push_cast; ring
  have h23 : g2.F ≤ g3.F := by simp only [g2, g3, Fmt.F]; push_cast; omega
  have hgm : ∀ j, g3.Grid (cofMinor (A.mat 3 3) j).det := fun j =>
    Fmt.grid_mono h23 (grid_det hg2 _ fun p q => hgr _ _)
  have hgt : ∀ j, g3.Grid (term (A.mat 3 3) j) := by
    intro j
    unfold term
    obtain ⟨r, hr⟩ := grid_det hg2 (cofMinor (A.mat 3 3) j) fun p q => hgr _ _
    obtain ⟨s, hs⟩ := hgr 0 j
    refine ⟨(-1) ^ (j : ℕ) * s * r, ?_⟩
    rw [hr, hs]
    unfold Fmt.val
    rw [hg2, hg3]
    push_cast
    rw [show -(3 * fi.F) = -fi.F + -(2 * fi.F) by ring, zpow_add₀ (by norm_num)]
    ring
  have hd1 : (defaultTypes 3 fi fo).temp = g3 := by simp only [defaultTypes, g3]; norm_num
  have hd2 : (defaultTypes 3 fi fo).d = g3 := by simp only [defaultTypes, g3]; norm_num
  have hg3W : 1 ≤ g3.W := by simp only [g3]; omega
  have hle : (2 : ℚ) ^ (2 * fi.I - 1) ≤ 2 ^ (3 * fi.I - 1) := Fmt.z_le (by omega)
  refine ⟨fun j => ⟨?_, ?_, fun h => absurd h (by decide), trivial⟩, ?_⟩
  · rw [hd1]
    exact holds g3 rfl hg3W rfl _ (lt_of_lt_of_le (hmin j) hle) (hgm j)
  · refine holds _ rfl ?_ rfl _ ?_ ?_
    · simp only [defaultTypes]; omega
    · rw [abs_mul, abs_pow, abs_neg, abs_one, one_pow, one_mul]
      refine lt_of_lt_of_le (hmin j) (Fmt.z_le ?_)
      simp only [defaultTypes]; push_cast; omega
    · have hF : g3.F ≤ (defaultTypes 3 fi fo).c.F := by simp only [g3, defaultTypes, Fmt.F]; push_cast; omega
      refine Fmt.grid_mono hF ?_
      obtain ⟨r, hr⟩ := hgm j
      exact ⟨(-1) ^ (j : ℕ) * r, by rw [hr]; unfold Fmt.val; push_cast; ring⟩
  · intro m hm3
    rw [hd2]
    have hgs : g3.Grid (∑ j : Fin 3 with j.1 < m, term (A.mat 3 3) j) := Fmt.grid_sum _ _ fun j _ => hgt j
    refine holds g3 rfl hg3W rfl _ ?_ hgs
    have hI3 : g3.I - 1 = 3 * fi.I - 1 := rfl
    rw [hI3]
    have hz := Fmt.z_pos (3 * fi.I - 1)
    have hs : (2 : ℚ) ^ (3 * fi.I - 1) = 2 * 2 ^ (3 * fi.I - 2) := by rw [← Fmt.z_succ]; congr 1; ring
    interval_cases m
    · simpa using hz
    · rw [sum_lt_succ _ (show 0 < 3 by omega)]
      simp only [Nat.not_lt_zero, Finset.filter_false, Finset.sum_empty, zero_add]
      have := hterm ⟨0, by omega⟩
      have := Fmt.z_pos (3 * fi.I - 2)
      linarith
    · rw [sum_lt_succ _ (show 1 < 3 by omega), sum_lt_succ _ (show 0 < 3 by omega)]
      simp only [Nat.not_lt_zero, Finset.filter_false, Finset.sum_empty, zero_add]
      refine lt_of_le_of_lt (abs_add_le _ _) ?_
      have := hterm ⟨0, by omega⟩
      have := hterm ⟨1, by omega⟩
      linarith
    · rw [← det_eq_terms, ← e3]
      exact det3_lt hm _ hbd

/-- Signed 3x3 inputs and an output type that holds the determinant: the result is the determinant. -/
theorem C19_signed_three_exact {fi : Fmt} (fo : Fmt) (hS : fi.S = true) (hW : 1 ≤ fi.W) (hI : 0 ≤ fi.I)
    (hI' : fi.I ≤ fi.W) (A : Mem ℚ) (hA : AllRep fi 3 A) (hout : Holds fo (A.mat 3 3).det) :
    determinant (defaultTypes 3 fi fo) 3 A = (A.mat 3 3).det :=
  C19_exact hW (default_base 3 fi fo) 3 le_rfl A hA (fits_signed_three fo hS hW hI hI' A hA) hout

/-- Signed 3x3 inputs and a saturating output type with no more fraction bits than the exact determinant: the result
is the determinant converted once. -/
theorem C19_signed_three {fi : Fmt} (fo : Fmt) (hS : fi.S = true) (hW : 1 ≤ fi.W) (hI : 0 ≤ fi.I) (hI' : fi.I ≤ fi.W)
    (hoW : 1 ≤ fo.W) (hoO : fo.O = .SAT ∨ fo.O = .SAT_SYM) (hoF : fo.F ≤ 3 * fi.F) (A : Mem ℚ) (hA : AllRep fi 3 A) :
    determinant (defaultTypes 3 fi fo) 3 A = fo.cvt (A.mat 3 3).det := by
  have hF := fits_signed_three fo hS hW hI hI' A hA
  have hd : Holds (defaultTypes 3 fi fo).d (A.mat 3 3).det := by
    have := hF.2 3 le_rfl
    rwa [← det_eq_terms] at this
  rw [determinant, compute_eq hW (default_base 3 fi fo) 0 A hA hF]
  have hdW : 1 ≤ (defaultTypes 3 fi fo).d.W := by simp only [defaultTypes]; omega
  have hdO : (defaultTypes 3 fi fo).d.O = .SAT := rfl
  have hdF : fo.F ≤ (defaultTypes 3 fi fo).d.F := by
    simp only [defaultTypes]; unfold Fmt.F at *; push_cast; linarith
  change fo.cvt ((defaultTypes 3 fi fo).d.cvt (fo.cvt _)) = fo.cvt _
  generalize (A.mat 3 3).det = x at *
  generalize (defaultTypes 3 fi fo).d = d at *
  unfold Holds at hd
  have hid := Fmt.cvt_idem hoW x
  have hmono := fun {x y : ℚ} h => Fmt.cvt_mono (R := ℚ) hoO (x := x) (y := y) h
  have hg : d.Grid (fo.cvt x) := Fmt.grid_mono hdF (Fmt.cvt_grid x)
  obtain ⟨r, hr⟩ := hg
  have hdr : d.cvt (fo.cvt x) = d.val (ovf d.W d.S .SAT r) := by
    rw [hr]; unfold Fmt.cvt Fmt.cvtRaw
    rw [Fmt.val_mul_pow, quant_intCast, hdO]
  obtain ⟨s, hs0, hs1, hs⟩ : d.Rep x := by rw [← hd]; exact Fmt.rep_cvt hdW x
  rcases lt_or_ge (maxRaw d.W d.S) r with h | h
  · have e : d.cvt (fo.cvt x) = d.val (maxRaw d.W d.S) := by rw [hdr]; simp only [ovf, if_pos h]
    rw [e]
    apply le_antisymm
    · rw [← hid]; apply hmono
      rw [hr, Fmt.val_le]; exact h.le
    · apply hmono
      rw [hs, Fmt.val_le]; exact hs1
  · rcases lt_or_ge r (minRaw d.W d.S) with h' | h'
    · have e : d.cvt (fo.cvt x) = d.val (minRaw d.W d.S) := by
        rw [hdr]; simp only [ovf, if_neg (not_lt.mpr h), if_pos h']
      rw [e]
      apply le_antisymm
      · apply hmono
        rw [hs, Fmt.val_le]; exact hs0
      · rw [← hid]; apply hmono
        rw [hr, Fmt.val_le]; exact h'.le
    · have e : d.cvt (fo.cvt x) = fo.cvt x := by
        rw [hdr, hr]; simp only [ovf, if_neg (not_lt.mpr h), if_neg (not_lt.mpr h')]
      rw [e, hid]

/-! ## Any size, entries small enough for the internal types -/

theorem holds_of {f : Fmt} (hS : f.S = true) (hW : 1 ≤ f.W) (hO : f.O ≠ .SAT_SYM) {x : ℚ} (hx : |x| < 2 ^ (f.I - 1))
    (hg : f.Grid x) : Holds f x := by
  refine Fmt.cvt_rep hW hO ((Fmt.rep_iff hW x).mpr ⟨?_, hg⟩)
  unfold Fmt.Bnd
  rw [if_pos hS]
  exact ⟨(abs_lt.mp hx).1.le, (abs_lt.mp hx).2⟩

theorem det_bound {k : ℕ} {K : ℚ} (A : Matrix (Fin k) (Fin k) ℚ) (hK : ∀ i j, |A i j| ≤ K) :
    |A.det| ≤ k.factorial * K ^ k := by
  have := Matrix.det_le (abv := AbsoluteValue.abs) (A := A) (x := K) hK
  simpa using this

theorem fits_bounded {t : Types} {fi : Fmt} (hF : 0 ≤ fi.F) {M : ℕ} {K : ℚ} (hK0 : 0 ≤ K)
    (hall : ∀ f ∈ [t.out, t.c, t.temp, t.d], f.S = true ∧ 1 ≤ f.W ∧ f.O ≠ .SAT_SYM ∧ M * fi.F ≤ f.F ∧
      ∀ k ≤ M, k.factorial * K ^ k < 2 ^ (f.I - 1)) :
    ∀ k ≤ M, ∀ A : Matrix (Fin k) (Fin k) ℚ, (∀ i j, fi.Grid (A i j) ∧ |A i j| ≤ K) → Fits t k A := by
  have hold : ∀ f ∈ [t.out, t.c, t.temp, t.d], ∀ k ≤ M, ∀ x : ℚ, |x| ≤ k.factorial * K ^ k →
      (⟨k * fi.W, k * fi.I, true, .TRN, .WRAP⟩ : Fmt).Grid x → Holds f x := by
    intro f hf k hk x hx hg
    obtain ⟨h1, h2, h3, h4, h5⟩ := hall f hf
    refine holds_of h1 h2 h3 (lt_of_le_of_lt hx (h5 k hk)) (Fmt.grid_mono ?_ hg)
    refine le_trans ?_ h4
    have : (k : ℤ) * fi.F ≤ M * fi.F := mul_le_mul_of_nonneg_right (by exact_mod_cast hk) hF
    refine le_trans (le_of_eq ?_) this
    unfold Fmt.F; simp only; push_cast; ring
  intro k
  induction k with
  | zero => intro _ _ _; trivial
  | succ k ih =>
    intro hk A hA
    match k, ih, hk, A, hA with
    | 0, _, _, _, _ => trivial
    | 1, _, _, _, _ => trivial
    | k + 2, ih, hk, A, hA =>
      have hgd : ∀ j, (⟨(k + 2 : ℕ) * fi.W, (k + 2 : ℕ) * fi.I, true, .TRN, .WRAP⟩ : Fmt).Grid (cofMinor A j).det := fun j =>
        grid_det (f := fi) (by unfold Fmt.F; simp only; push_cast; ring) _ fun p q => (hA _ _).1
      have hbd : ∀ j, |(cofMinor A j).det| ≤ (k + 2).factorial * K ^ (k + 2) := fun j =>
        det_bound _ fun p q => (hA _ _).2
      refine ⟨fun j => ⟨?_, ?_, fun _ => ?_, ih (by omega) _ fun p q => hA _ _⟩, ?_⟩
      · exact hold _ (by simp) (k + 2) (by omega) _ (hbd j) (hgd j)
      · refine hold _ (by simp) (k + 2) (by omega) _ ?_ ?_
        · rw [abs_mul, abs_pow, abs_neg, abs_one, one_pow, one_mul]; exact hbd j
        · obtain ⟨r, hr⟩ := hgd j
          exact ⟨(-1) ^ (j : ℕ) * r, by rw [hr]; unfold Fmt.val; push_cast; ring⟩
      · exact hold _ (by simp) (k + 2) (by omega) _ (hbd j) (hgd j)
      · intro m hm
        have hterm : ∀ j, |term A j| ≤ (k + 2).factorial * K ^ (k + 3) := by
          intro j
          unfold term
          rw [abs_mul, abs_mul, abs_pow, abs_neg, abs_one, one_pow, one_mul]
          calc |A 0 j| * |(cofMinor A j).det| ≤ K * ((k + 2).factorial * K ^ (k + 2)) :=
                mul_le_mul (hA 0 j).2 (hbd j) (abs_nonneg _) hK0
            _ = _ := by ring
        refine hold _ (by simp) (k + 3) (by omega) _ ?_ ?_
        · have h1 := Finset.abs_sum_le_sum_abs (term A) (Finset.univ.filter fun j : Fin (k + 3) => j.1 < m)
          have h2 := Finset.sum_le_sum_of_subset_of_nonneg
            (Finset.filter_subset (fun j : Fin (k + 3) => j.1 < m) Finset.univ) (f := fun j => |term A j|)
            (fun j _ _ => abs_nonneg _)
          have h3 := Finset.sum_le_sum (s := Finset.univ) fun j _ => hterm j
          simp only [Finset.sum_const, Finset.card_univ, Fintype.card_fin, nsmul_eq_mul] at h3
          refine h1.trans (h2.trans (h3.trans (le_of_eq ?_)))
          rw [Nat.factorial_succ (k + 2)]; push_cast; ring
        · refine Fmt.grid_sum _ _ fun j _ => ?_
          unfold term
          obtain ⟨r, hr⟩ := hgd j
          obtain ⟨s, hs⟩ := (hA 0 j).1
          refine ⟨(-1) ^ (j : ℕ) * s * r, ?_⟩
          rw [hr, hs]
          unfold Fmt.val
          have e : -(⟨(k + 3 : ℕ) * fi.W, (k + 3 : ℕ) * fi.I, true, .TRN, .WRAP⟩ : Fmt).F =
              -fi.F + -(⟨(k + 2 : ℕ) * fi.W, (k + 2 : ℕ) * fi.I, true, .TRN, .WRAP⟩ : Fmt).F := by
            unfold Fmt.F; simp only; push_cast; ring
          push_cast at e ⊢
          rw [e, zpow_add₀ (by norm_num)]
          ring

/-- Any size `M ≥ 3`, signed or unsigned: if all entries are at most `K` in magnitude and `k!*K^k` is below the range
of the internal types and of the output type for every `k ≤ M`, the result is the determinant. -/
theorem C19_bounded {fi : Fmt} (fo : Fmt) (hW : 1 ≤ fi.W) (hF : 0 ≤ fi.F) {M : ℕ} (hM : 3 ≤ M) {K : ℚ} (hK0 : 0 ≤ K)
    (hK : ∀ k ≤ M, k.factorial * K ^ k < 2 ^ (M * fi.I - 1)) (hoS : fo.S = true) (hoW : 1 ≤ fo.W) (hoO : fo.O ≠ .SAT_SYM)
    (hoF : M * fi.F ≤ fo.F) (hoI : M * fi.I ≤ fo.I) (A : Mem ℚ) (hA : AllRep fi M A)
    (hAK : ∀ i < M, ∀ j < M, |A i j| ≤ K) : determinant (defaultTypes M fi fo) M A = (A.mat M M).det := by
  have hMW : 1 ≤ M * fi.W := Nat.mul_pos (by omega) hW
  have hgr : ∀ i j, fi.Grid (A.mat M M i j) ∧ |A.mat M M i j| ≤ K := fun i j =>
    ⟨((Fmt.rep_iff hW _).mp (hA i i.2 j j.2)).2, hAK i i.2 j j.2⟩
  have hout : ∀ k ≤ M, k.factorial * K ^ k < 2 ^ (fo.I - 1) := fun k hk =>
    lt_of_lt_of_le (hK k hk) (Fmt.z_le (by omega))
  refine C19_exact hW (default_base M fi fo) M hM A hA (fits_bounded hF hK0 ?_ M le_rfl _ hgr) ?_
  · intro f hf
    simp only [defaultTypes, List.mem_cons, List.not_mem_nil, or_false] at hf
    rcases hf with rfl | rfl | rfl | rfl
    · exact ⟨hoS, hoW, hoO, hoF, hout⟩
    · refine ⟨rfl, by simp only; omega, by simp, ?_, fun k hk => lt_of_lt_of_le (hK k hk) (Fmt.z_le (by simp only; omega))⟩
      unfold Fmt.F; simp only; push_cast; linarith
    · exact ⟨rfl, hMW, by simp, by unfold Fmt.F; simp only; push_cast; linarith, hK⟩
    · exact ⟨rfl, hMW, by simp, by unfold Fmt.F; simp only; push_cast; linarith, hK⟩
  · refine holds_of hoS hoW hoO (lt_of_le_of_lt (det_bound _ fun i j => (hgr i j).2) (hout M le_rfl)) ?_
    refine Fmt.grid_mono ?_ (grid_det (f := fi) (g := ⟨M * fi.W, M * fi.I, true, .TRN, .WRAP⟩)
      (by unfold Fmt.F; simp only; push_cast; ring) _ fun i j => (hgr i j).1)
    refine le_trans (le_of_eq ?_) hoF
    unfold Fmt.F; simp only; push_cast; ring

/-! ## Where the result is not the determinant -/

/-- A matrix given by its rows. -/
def ofRows (l : List (List ℚ)) : Mem ℚ := fun i j => (l.getD i []).getD j 0

def int8 : Fmt := ⟨8, 8, true, .TRN, .WRAP⟩
def uint8 : Fmt := ⟨8, 8, false, .TRN, .WRAP⟩
def int64 : Fmt := ⟨64, 64, true, .TRN, .SAT⟩
def out8 : Fmt := ⟨8, 8, true, .TRN, .SAT⟩

/-- Unsigned inputs saturate the signed `d_type` already for size 1 and 2. -/
theorem C19_unsigned_one_wrong : determinant (defaultTypes 1 uint8 int64) 1 (ofRows [[200]]) = 127 := by
  decide +kernel

theorem C19_unsigned_two_wrong :
    determinant (defaultTypes 2 uint8 int64) 2 (ofRows [[255, 0], [0, 255]]) = 32767 ∧
      (Mem.mat 2 2 (ofRows [[255, 0], [0, 255]])).det = 65025 := by
  refine ⟨by decide +kernel, ?_⟩
  rw [Matrix.det_fin_two]; norm_num [Mem.mat, ofRows]

/-- A nearly full-scale 4x4 matrix. -/
def full4 : Mem ℚ := ofRows [[-128, 127, 127, 127], [127, -128, 127, 127], [127, 127, -128, 127], [127, 127, 127, -128]]

/-- Signed 4x4 inputs can saturate `d_type` although the output type is wide. -/
theorem C19_signed_four_wrong : determinant (defaultTypes 4 int8 int64) 4 full4 = -2147483648 ∧
    (full4.mat 4 4).det = -4195087875 := by
  refine ⟨by decide +kernel, ?_⟩
  simp [Matrix.det_succ_row_zero, Fin.sum_univ_succ, Mem.mat, full4, ofRows, Fin.succAbove]
  norm_num

/-- A matrix with determinant -40 whose minors 200 and 240 do not fit 8 bits. -/
def small4 : Mem ℚ := ofRows [[1, 1, 0, 0], [6, 5, 0, 0], [0, 0, 5, 0], [0, 0, 0, 8]]

/-- The minors are converted to the caller's output type: a determinant that fits it is still wrong. -/
theorem C19_output_type_wrong : determinant (defaultTypes 4 int8 out8) 4 small4 = 0 ∧ (small4.mat 4 4).det = -40 ∧
    Holds out8 (-40) := by
  refine ⟨by decide +kernel, ?_, by unfold Holds; decide +kernel⟩
  simp [Matrix.det_succ_row_zero, Fin.sum_univ_succ, Mem.mat, small4, ofRows, Fin.succAbove]
  norm_num

def fneg : Fmt := ⟨4, -2, true, .TRN, .WRAP⟩
def outF : Fmt := ⟨64, 10, true, .TRN, .SAT⟩
def tiny3 : Mem ℚ := ofRows [[1 / 16, 0, 0], [0, -1 / 8, 0], [0, 0, -1 / 8]]

/-- With a negative integer width a 2x2 minor saturates `temp_type`. -/
theorem C19_negative_I_wrong : determinant (defaultTypes 3 fneg outF) 3 tiny3 = 1 / 2048 ∧
    (tiny3.mat 3 3).det = 1 / 1024 := by
  refine ⟨by decide +kernel, ?_⟩
  rw [Matrix.det_fin_three]; norm_num [Mem.mat, tiny3, ofRows]

/-! ## The hypotheses are met -/

def f63 : Fmt := ⟨6, 3, true, .TRN, .WRAP⟩
def o32 : Fmt := ⟨40, 20, true, .RND, .SAT⟩
def o20 : Fmt := ⟨20, 14, true, .RND, .SAT⟩

theorem f63_rep (r : ℤ) (h0 : -32 ≤ r) (h1 : r ≤ 31) : f63.Rep (r / 8) :=
  ⟨r, h0, h1, by norm_num [f63, Fmt.val, Fmt.F]; ring⟩

def ex3 : Mem ℚ := fun i j => if i = j then -32 / 8 else 31 / 8

/-- `C19_signed_three` for a 3x3 matrix of extreme values. -/
example : determinant (defaultTypes 3 f63 o20) 3 ex3 = o20.cvt (ex3.mat 3 3).det :=
  C19_signed_three (fi := f63) o20 rfl (by decide) (by decide) (by decide) (by decide) (Or.inl rfl) (by decide) ex3
    fun i _ j _ => by
      unfold ex3
      split_ifs
      · simpa using f63_rep (-32) (by norm_num) (by norm_num)
      · simpa using f63_rep 31 (by norm_num) (by norm_num)

def ex5 : Mem ℚ := fun i j => if i ≤ j then 13 / 8 else -16 / 8

/-- `C19_bounded` for 5x5 matrices with entries up to 2 in `ac_fixed<6,3,true>`. -/
example : determinant (defaultTypes 5 f63 o32) 5 ex5 = (ex5.mat 5 5).det :=
  C19_bounded (fi := f63) (K := 2) o32 (by decide) (by decide) (by decide) (by norm_num)
    (fun k hk => by interval_cases k <;> norm_num [f63, Nat.factorial]) rfl (by decide) (by decide) (by decide)
    (by decide) ex5
    (fun i _ j _ => by
      unfold ex5
      split_ifs
      · simpa using f63_rep 13 (by norm_num) (by norm_num)
      · simpa using f63_rep (-16) (by norm_num) (by norm_num))
    (fun i _ j _ => by unfold ex5; split_ifs <;> norm_num [abs_le])

end Props.Determinant
