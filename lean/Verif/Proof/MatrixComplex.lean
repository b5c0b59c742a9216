import Verif.Model.MatrixComplex
import Verif.Proof.DetComplex
import Verif.Proof.Matmul

/-! # Proofs about matrices of complex numbers -/

namespace Proof.MatrixComplex
open Ac Model.MatrixComplex Proof.Matrix
open Model.DetComplex (Cx cvt)

theorem forUp_map {σ τ : Type*} {f : ℕ → σ → σ} {g : ℕ → τ → τ} (p : σ → τ) {n : ℕ}
    (h : ∀ k < n, ∀ s, p (f k s) = g k (p s)) (s : σ) : p (forUp f n s) = forUp g n (p s) := by
  induction n with
  | zero => rfl
  | succ n ih => rw [forUp, forUp, h n (by omega), ih fun k hk => h k (by omega)]

theorem re_sum {n : ℕ} (g : Fin n → Cx) : (∑ k, g k).re = ∑ k, (g k).re := by
  induction n with
  | zero => simp
  | succ n ih => rw [Fin.sum_univ_succ, Fin.sum_univ_succ, QuadraticAlgebra.re_add, ih]

theorem im_sum {n : ℕ} (g : Fin n → Cx) : (∑ k, g k).im = ∑ k, (g k).im := by
  induction n with
  | zero => simp
  | succ n ih => rw [Fin.sum_univ_succ, Fin.sum_univ_succ, QuadraticAlgebra.im_add, ih]

theorem rep_zero (f : Fmt) : f.Rep 0 := by
  refine ⟨0, ?_, ?_, by simp [Fmt.val]⟩
  · unfold minRaw; split_ifs <;> simp
  · unfold maxRaw; split_ifs
    · have : (0 : ℤ) < 2 ^ (f.W - 1) := by positivity
      omega
    · have : (0 : ℤ) < 2 ^ f.W := by positivity
      omega

theorem sumOf_W {f : Fmt} (hW : 1 ≤ f.W) (n : ℕ) : 1 ≤ (f.sumOf n).W := by unfold Fmt.sumOf; simp only; omega

/-- The accumulation of one part: exact in the type with room for all terms. -/
theorem acc_part {fp : Fmt} (hW : 1 ≤ fp.W) (hO : fp.O ≠ .SAT_SYM) (N : ℕ) (g : ℕ → ℚ) (hg : ∀ k < N, fp.Rep (g k)) :
    forUp (fun k t => (fp.sumOf N).cvt (((fp.sumOf N).plus fp).cvt (t + fp.cvt (g k)))) N ((fp.sumOf N).cvt (0 : ℚ)) =
      ∑ k : Fin N, g k := by
  have hW' := sumOf_W hW N
  have hO' : (fp.sumOf N).O ≠ .SAT_SYM := by simp [Fmt.sumOf]
  have hpre : ∀ n ≤ N, (fp.sumOf N).Rep (∑ k : Fin n, g k) := by
    intro n hn
    rcases Nat.eq_zero_or_pos n with rfl | hpos
    · simpa using rep_zero _
    · exact Fmt.rep_sum hW (le_trans hn (Fmt.log2Ceil_le N)) (fun k : Fin n => g k) (fun k => hg k (by omega)) hpos
  have key : ∀ n ≤ N, forUp (fun k t => (fp.sumOf N).cvt (((fp.sumOf N).plus fp).cvt (t + fp.cvt (g k)))) n
      ((fp.sumOf N).cvt (0 : ℚ)) = ∑ k : Fin n, g k := by
    intro n hn
    induction n with
    | zero => simpa [forUp] using Fmt.cvt_zero' hW'
    | succ n ih =>
      have h1 := hpre n (by omega)
      have h2 := hg n (by omega)
      have h3 := hpre (n + 1) hn
      have e : ∑ k : Fin (n + 1), g k = ∑ k : Fin n, g k + g n := by rw [Fin.sum_univ_castSucc]; rfl
      rw [forUp, ih (by omega), Fmt.cvt_rep hW hO h2,
        Fmt.cvt_rep (plus_W hW') (by simp [Fmt.plus, Fmt.mk']) (Fmt.rep_plus hW' hW h1 h2), e]
      rw [e] at h3
      exact Fmt.cvt_rep hW' hO' h3
  exact key N le_rfl

/-- The accumulation of one part in a wrapping type: the exact sum wrapped once. -/
theorem dot_part {fp : Fmt} (hW : 1 ≤ fp.W) (hO : fp.O ≠ .SAT_SYM) (m N : ℕ) (g : ℕ → ℚ) (hg : ∀ k < N, fp.Rep (g k)) :
    forUp (fun k t => (fp.sumOf m).cvt (t + fp.cvt (g k))) N ((fp.sumOf m).cvt (0 : ℚ)) =
      (fp.sumOf m).cvt (∑ k : Fin N, g k) := by
  have hext : ∀ (n : ℕ) (s : ℚ), n ≤ N → forUp (fun k t => (fp.sumOf m).cvt (t + fp.cvt (g k))) n s =
      forUp (fun k t => (fp.sumOf m).cvt (t + g k)) n s := by
    intro n s hn
    induction n with
    | zero => rfl
    | succ n ih => rw [forUp, forUp, ih (by omega), Fmt.cvt_rep hW hO (hg n (by omega))]
  rw [hext N _ le_rfl]
  exact Fmt.acc_wrap rfl g N fun k hk =>
    Fmt.grid_same_F (Fmt.sumOf_F _ _).symm ((Fmt.rep_iff hW _).mp (hg k hk)).2

/-- Both parts are values of the type. -/
def RepC (f : Fmt) (z : Cx) : Prop := f.Rep z.re ∧ f.Rep z.im

theorem cvt_repC {f : Fmt} (hW : 1 ≤ f.W) (hO : f.O ≠ .SAT_SYM) {z : Cx} (h : RepC f z) : cvt f z = z := by
  unfold cvt
  rw [Fmt.cvt_rep hW hO h.1, Fmt.cvt_rep hW hO h.2]

theorem acc_eq {fp : Fmt} (hW : 1 ≤ fp.W) (hO : fp.O ≠ .SAT_SYM) (N : ℕ) (A B : Mem Cx) (i j : ℕ)
    (h : ∀ k < N, RepC fp (A i k * B k j)) : acc fp N A B i j = ∑ k : Fin N, A i k * B k j := by
  apply QuadraticAlgebra.ext
  · rw [re_sum, ← acc_part hW hO N (fun k => (A i k * B k j).re) fun k hk => (h k hk).1]
    exact forUp_map QuadraticAlgebra.re (fun k _ s => rfl) _
  · rw [im_sum, ← acc_part hW hO N (fun k => (A i k * B k j).im) fun k hk => (h k hk).2]
    exact forUp_map QuadraticAlgebra.im (fun k _ s => rfl) _

theorem dot_eq {fp : Fmt} (hW : 1 ≤ fp.W) (hO : fp.O ≠ .SAT_SYM) (N : ℕ) (A B : Mem Cx) (i j : ℕ)
    (h : ∀ k < N, RepC fp (A i k * B k j)) : dot fp N A B i j = cvt (sumFmt fp N) (∑ k : Fin N, A i k * B k j) := by
  apply QuadraticAlgebra.ext
  · change _ = (sumFmt fp N).cvt (∑ k : Fin N, A i k * B k j).re
    rw [re_sum, sumFmt, ← dot_part hW hO (N - 1) N (fun k => (A i k * B k j).re) fun k hk => (h k hk).1]
    exact forUp_map QuadraticAlgebra.re (fun k _ s => rfl) _
  · change _ = (sumFmt fp N).cvt (∑ k : Fin N, A i k * B k j).im
    rw [im_sum, sumFmt, ← dot_part hW hO (N - 1) N (fun k => (A i k * B k j).im) fun k hk => (h k hk).2]
    exact forUp_map QuadraticAlgebra.im (fun k _ s => rfl) _

theorem cvt_cvt_sum {fp : Fmt} (hW : 1 ≤ fp.W) (N : ℕ) (z : Cx) : cvt (sumFmt fp N) (cvt (sumFmt fp N) z) = cvt (sumFmt fp N) z := by
  unfold cvt
  simp only [Fmt.cvt_idem (sumOf_W hW (N - 1)), sumFmt]

/-- The running total of `sum`. -/
theorem sum_eq {fa : Fmt} (hO : fa.O = .WRAP) (M N : ℕ) (A : Mem Cx)
    (hA : ∀ i < M, ∀ j < N, fa.Grid (A i j).re ∧ fa.Grid (A i j).im) :
    sum fa M N A = cvt fa (∑ i : Fin M, ∑ j : Fin N, A i j) := by
  apply QuadraticAlgebra.ext
  · change _ = fa.cvt (∑ i : Fin M, ∑ j : Fin N, A i j).re
    simp only [re_sum]
    rw [← Proof.Matrix.sum_eq hO M N (fun i j => (A i j).re) fun i hi j hj => (hA i hi j hj).1]
    exact forUp_map QuadraticAlgebra.re
      (fun k _ s => forUp_map QuadraticAlgebra.re (g := fun j t => fa.cvt (t + Model.Matrix.get (fun i j => (A i j).re) k j))
        (fun _ _ _ => rfl) s) _
  · change _ = fa.cvt (∑ i : Fin M, ∑ j : Fin N, A i j).im
    simp only [im_sum]
    rw [← Proof.Matrix.sum_eq hO M N (fun i j => (A i j).im) fun i hi j hj => (hA i hi j hj).2]
    exact forUp_map QuadraticAlgebra.im
      (fun k _ s => forUp_map QuadraticAlgebra.im (g := fun j t => fa.cvt (t + Model.Matrix.get (fun i j => (A i j).im) k j))
        (fun _ _ _ => rfl) s) _

/-- The smallest type for the parts of a product: signed, with room for the sum and the difference of two products of parts. -/
def prodFmt (fa fb : Fmt) : Fmt :=
  ⟨(fa.mult fb).W + (if (fa.mult fb).S then 1 else 2), (fa.mult fb).I + (if (fa.mult fb).S then 1 else 2), true, .TRN, .WRAP⟩

theorem prod_part {fa fb : Fmt} (ha : 1 ≤ fa.W) {x y : ℚ} (hx : (fa.mult fb).Rep x) (hy : (fa.mult fb).Rep y) :
    (prodFmt fa fb).Rep (x + y) ∧ (prodFmt fa fb).Rep (x - y) := by
  have hW := mult_W (g := fb) ha
  have hW2 : 1 ≤ (prodFmt fa fb).W := by unfold prodFmt; simp only; omega
  rw [Fmt.rep_iff hW] at hx hy
  rw [Fmt.rep_iff hW2, Fmt.rep_iff hW2]
  have hF : (prodFmt fa fb).F = (fa.mult fb).F := by
    unfold prodFmt Fmt.F
    simp only
    split_ifs <;> push_cast <;> ring
  have gx := Fmt.grid_same_F hF.symm hx.2
  have gy := Fmt.grid_same_F hF.symm hy.2
  have h1 := hx.1
  have h2 := hy.1
  have hb : (prodFmt fa fb).Bnd (x + y) ∧ (prodFmt fa fb).Bnd (x - y) := by
    unfold Fmt.Bnd at *
    unfold prodFmt
    simp only [if_true]
    generalize (fa.mult fb).I = k at *
    have e : (2 : ℚ) ^ k = 2 * 2 ^ (k - 1) := by rw [← Fmt.z_succ]; congr 1; ring
    have hp := Fmt.z_pos k
    by_cases hS : (fa.mult fb).S = true
    · rw [if_pos hS] at h1 h2
      rw [if_pos hS, add_sub_cancel_right]
      refine ⟨⟨?_, ?_⟩, ?_, ?_⟩ <;> linarith
    · rw [if_neg hS] at h1 h2
      rw [if_neg hS, show k + 2 - 1 = k + 1 by ring, Fmt.z_succ]
      refine ⟨⟨?_, ?_⟩, ?_, ?_⟩ <;> linarith
  exact ⟨⟨hb.1, Fmt.grid_add gx gy⟩, hb.2, Fmt.grid_sub gx gy⟩

/-- That type holds every product. -/
theorem prodFmt_holds {fa fb : Fmt} (ha : 1 ≤ fa.W) (hb : 1 ≤ fb.W) {x y : Cx} (hx : RepC fa x) (hy : RepC fb y) :
    RepC (prodFmt fa fb) (x * y) := by
  unfold RepC
  rw [QuadraticAlgebra.re_mul, QuadraticAlgebra.im_mul]
  have e1 := (prod_part ha (Fmt.rep_mult ha hb hx.1 hy.1) (Fmt.rep_mult ha hb hx.2 hy.2)).2
  have e2 := (prod_part ha (Fmt.rep_mult ha hb hx.1 hy.2) (Fmt.rep_mult ha hb hx.2 hy.1)).1
  constructor
  · convert e1 using 1; ring
  · convert e2 using 1; ring

theorem rep_lo {f : Fmt} (hW : 1 ≤ f.W) (hS : f.S = true) : f.Rep (-2 ^ (f.I - 1)) := by
  refine ⟨minRaw f.W f.S, le_rfl, ?_, ?_⟩
  · unfold minRaw maxRaw
    have : (0 : ℤ) < 2 ^ (f.W - 1) := by positivity
    simp only [hS, if_true]
    omega
  · unfold Fmt.val minRaw
    rw [if_pos hS]
    push_cast
    rw [neg_mul, ← zpow_natCast, Fmt.z_add]
    congr 2
    unfold Fmt.F; push_cast [hW]; ring

/-- A type that holds every product of signed parts is signed and has one integer bit more than the product of the parts. -/
theorem prod_I {fa fb fp : Fmt} (ha : 1 ≤ fa.W) (hb : 1 ≤ fb.W) (hSa : fa.S = true) (hSb : fb.S = true) (hW : 1 ≤ fp.W)
    (h : ∀ x y : Cx, RepC fa x → RepC fb y → RepC fp (x * y)) : fa.I + fb.I + 1 ≤ fp.I ∧ fp.S = true := by
  have la := rep_lo ha hSa
  have lb := rep_lo hb hSb
  have h0 := (h ⟨-2 ^ (fa.I - 1), -2 ^ (fa.I - 1)⟩ ⟨-2 ^ (fb.I - 1), -2 ^ (fb.I - 1)⟩ ⟨la, la⟩ ⟨lb, lb⟩).2
  have h1 := (h ⟨0, -2 ^ (fa.I - 1)⟩ ⟨0, -2 ^ (fb.I - 1)⟩ ⟨rep_zero _, la⟩ ⟨rep_zero _, lb⟩).1
  rw [QuadraticAlgebra.im_mul, Fmt.rep_iff hW] at h0
  rw [QuadraticAlgebra.re_mul, Fmt.rep_iff hW] at h1
  have b0 := h0.1
  have b1 := h1.1
  have hp : (0 : ℚ) < 2 ^ (fa.I - 1) * 2 ^ (fb.I - 1) := mul_pos (Fmt.z_pos _) (Fmt.z_pos _)
  unfold Fmt.Bnd at b0 b1
  have hS : fp.S = true := by
    by_contra hS
    rw [if_neg hS] at b1
    have := b1.1
    simp only at this
    linarith
  refine ⟨?_, hS⟩
  rw [if_pos hS] at b0
  have e : (2 : ℚ) ^ (fa.I + fb.I - 1) = 2 * (2 ^ (fa.I - 1) * 2 ^ (fb.I - 1)) := by
    rw [Fmt.z_add, ← Fmt.z_succ]; congr 1; ring
  have hlt : (2 : ℚ) ^ (fa.I + fb.I - 1) < 2 ^ (fp.I - 1) := by
    have := b0.2
    simp only at this
    linarith
  have := (zpow_lt_zpow_iff_right₀ (by norm_num : (1 : ℚ) < 2)).1 hlt
  omega

/-- Bounds of the parts of a product of signed parts. -/
theorem prod_abs {fa fb : Fmt} (ha : 1 ≤ fa.W) (hb : 1 ≤ fb.W) (hSa : fa.S = true) (hSb : fb.S = true) {x y : Cx}
    (hx : RepC fa x) (hy : RepC fb y) :
    |(x * y).re| ≤ 2 ^ (fa.I + fb.I - 1) ∧ |(x * y).im| ≤ 2 ^ (fa.I + fb.I - 1) := by
  have e : (2 : ℚ) ^ (fa.I + fb.I - 1) = 2 ^ (fa.I - 1) * 2 ^ (fb.I - 1) + 2 ^ (fa.I - 1) * 2 ^ (fb.I - 1) := by
    rw [Fmt.z_add, ← two_mul, ← Fmt.z_succ]; congr 1; ring
  have ab : ∀ {f : Fmt} {u : ℚ}, 1 ≤ f.W → f.S = true → f.Rep u → |u| ≤ 2 ^ (f.I - 1) := by
    intro f u hf hS hu
    have h := ((Fmt.rep_iff hf _).mp hu).1
    unfold Fmt.Bnd at h
    rw [if_pos hS] at h
    exact abs_le.2 ⟨h.1, h.2.le⟩
  have mm : ∀ {u v : ℚ}, fa.Rep u → fb.Rep v → |u * v| ≤ 2 ^ (fa.I - 1) * 2 ^ (fb.I - 1) := by
    intro u v hu hv
    rw [abs_mul]
    exact mul_le_mul (ab ha hSa hu) (ab hb hSb hv) (abs_nonneg _) (Fmt.z_pos _).le
  rw [QuadraticAlgebra.re_mul, QuadraticAlgebra.im_mul, e]
  have a1 := abs_le.1 (mm hx.1 hy.1)
  have a2 := abs_le.1 (mm hx.2 hy.2)
  have a3 := abs_le.1 (mm hx.1 hy.2)
  have a4 := abs_le.1 (mm hx.2 hy.1)
  constructor <;> rw [abs_le] <;> constructor <;> linarith

/-- `N` terms fit the type with room for `N-1` when each takes at most half of the range and `N` is at least 3. -/
theorem sum_fits {fp : Fmt} (hW : 1 ≤ fp.W) (hS : fp.S = true) {N : ℕ} (hN : 3 ≤ N) {k : ℤ} (hk : k + 1 ≤ fp.I) (g : Fin N → ℚ)
    (hg : ∀ i, fp.Rep (g i)) (hb : ∀ i, |g i| ≤ 2 ^ (k - 1)) : (fp.sumOf (N - 1)).Rep (∑ i, g i) := by
  rw [Fmt.rep_iff (sumOf_W hW _)]
  refine ⟨?_, Fmt.grid_sum _ _ fun i _ => Fmt.grid_same_F (Fmt.sumOf_F _ _).symm ((Fmt.rep_iff hW _).mp (hg i)).2⟩
  have hsum : |∑ i, g i| ≤ N * 2 ^ (k - 1) := by
    refine (Finset.abs_sum_le_sum_abs _ _).trans ?_
    have := Finset.sum_le_sum (s := Finset.univ) fun i _ => hb i
    simpa using this
  have hl1 : 1 ≤ log2Ceil (N - 1) := by
    unfold log2Ceil
    rw [if_neg (by omega)]; omega
  have hl : (N : ℚ) < 2 ^ ((log2Ceil (N - 1) : ℤ) + 1) := by
    have h1 := Fmt.log2Ceil_le (N - 1)
    have h2 : 2 ^ 1 ≤ 2 ^ log2Ceil (N - 1) := Nat.pow_le_pow_right (by norm_num) hl1
    rw [show (log2Ceil (N - 1) : ℤ) + 1 = ((log2Ceil (N - 1) + 1 : ℕ) : ℤ) by push_cast; ring, zpow_natCast]
    have : N < 2 ^ (log2Ceil (N - 1) + 1) := by rw [pow_succ]; omega
    exact_mod_cast this
  have h3 := mul_lt_mul_of_pos_right hl (Fmt.z_pos (k - 1))
  rw [Fmt.z_add] at h3
  have h5 : (2 : ℚ) ^ ((log2Ceil (N - 1) : ℤ) + 1 + (k - 1)) ≤ 2 ^ ((fp.sumOf (N - 1)).I - 1) := by
    apply Fmt.z_le
    unfold Fmt.sumOf
    simp only
    omega
  have h4 := abs_lt.mp (lt_of_lt_of_le (lt_of_le_of_lt hsum h3) h5)
  unfold Fmt.Bnd
  rw [if_pos (show (fp.sumOf (N - 1)).S = true from hS)]
  exact ⟨h4.1.le, h4.2⟩

end Proof.MatrixComplex
