import Verif.Proof.MatrixComplex
import Verif.Props.DetComplex
import Mathlib.LinearAlgebra.Matrix.Hadamard

/-! # C84: matrices of complex numbers -/

namespace Props.MatrixComplex
open Ac Model.MatrixComplex Proof.MatrixComplex
open Model.DetComplex (Cx cvt)
open Props.DetComplex (toC)

/-- Every element of an `M` by `N` array has parts of the type `f`. -/
def AllRep (f : Fmt) (M N : ℕ) (A : Mem Cx) : Prop := ∀ i < M, ∀ j < N, f.Rep (A i j).re ∧ f.Rep (A i j).im

/-- The type `fp` of the parts of a product holds every product of numbers with parts of the types `fa` and `fb`. -/
structure ProdOk (fa fb fp : Fmt) : Prop where
  wide : 1 ≤ fp.W
  full : fp.O ≠ .SAT_SYM
  holds : ∀ x y : Cx, fa.Rep x.re ∧ fa.Rep x.im → fb.Rep y.re ∧ fb.Rep y.im → fp.Rep (x * y).re ∧ fp.Rep (x * y).im

/-- The smallest such type meets the assumption, whatever the types of the operands. -/
theorem prodFmt_ok {fa fb : Fmt} (ha : 1 ≤ fa.W) (hb : 1 ≤ fb.W) : ProdOk fa fb (prodFmt fa fb) where
  wide := by unfold prodFmt; simp only; split_ifs <;> omega
  full := by simp [prodFmt]
  holds _ _ hx hy := prodFmt_holds ha hb hx hy

/-- Every element of the output of `ac_matrixmul` is the exact inner product, converted once to the output type. -/
theorem C84_matrixmul {fa fb fp : Fmt} (hp : ProdOk fa fb fp) (fc : Fmt) (M N P : ℕ) (A B C : Mem Cx) (hA : AllRep fa M N A)
    (hB : AllRep fb N P B) :
    (arraymultiply fp fc M N P A B C).mat M P = (A.mat M N * B.mat N P).map (cvt fc) := by
  ext1 i j
  have := fill_eq M P (fun i j => cvt fc (acc fp N A B i j)) C i j
  rw [if_pos ⟨i.2, j.2⟩] at this
  rw [acc_eq hp.wide hp.full N A B i j fun k hk => hp.holds _ _ (hA i i.2 k hk) (hB k hk j j.2)] at this
  exact this

/-- The same with the complex numbers of Mathlib: a result type that holds the elements of the product stores the product. -/
theorem C84_matrixmul_complex {fa fb fp : Fmt} (hp : ProdOk fa fb fp) (fc : Fmt) (M N P : ℕ) (A B C : Mem Cx)
    (hA : AllRep fa M N A) (hB : AllRep fb N P B) (hfit : ∀ i j, cvt fc ((A.mat M N * B.mat N P) i j) = (A.mat M N * B.mat N P) i j) :
    ((arraymultiply fp fc M N P A B C).mat M P).map toC = (A.mat M N).map toC * (B.mat N P).map toC := by
  rw [C84_matrixmul hp fc M N P A B C hA hB, ← Matrix.map_mul]
  congr 1
  ext1 i j
  exact hfit i j

/-- Nothing outside the output array is written. -/
theorem C84_frame (fp fc : Fmt) (M N P : ℕ) (A B C : Mem Cx) (i j : ℕ) (h : ¬ (i < M ∧ j < P)) :
    arraymultiply fp fc M N P A B C i j = C i j := by
  have := fill_eq M P (fun i j => cvt fc (acc fp N A B i j)) C i j
  rwa [if_neg h] at this

/-! ## ac_matrix -/

theorem C84_add {fa fb : Fmt} (ha : 1 ≤ fa.W) (hb : 1 ≤ fb.W) (M N : ℕ) (A B junk : Mem Cx) (hA : AllRep fa M N A)
    (hB : AllRep fb M N B) : (add fa fb M N A B junk).mat M N = A.mat M N + B.mat M N := by
  ext1 i j
  have := fill_eq M N (fun i j => cvt (fa.plus fb) (cvt (fa.plus fb) (Model.Matrix.get A i j + Model.Matrix.get B i j))) junk i j
  rw [if_pos ⟨i.2, j.2⟩] at this
  have h : RepC (fa.plus fb) (A i j + B i j) :=
    ⟨Fmt.rep_plus ha hb (hA i i.2 j j.2).1 (hB i i.2 j j.2).1, Fmt.rep_plus ha hb (hA i i.2 j j.2).2 (hB i i.2 j j.2).2⟩
  have hc := cvt_repC (Proof.Matrix.plus_W ha) (by simp [Fmt.plus, Fmt.mk']) h
  unfold Model.Matrix.get at this
  rw [hc, hc] at this
  exact this

theorem C84_sub {fa fb : Fmt} (ha : 1 ≤ fa.W) (hb : 1 ≤ fb.W) (M N : ℕ) (A B junk : Mem Cx) (hA : AllRep fa M N A)
    (hB : AllRep fb M N B) : (sub fa fb M N A B junk).mat M N = A.mat M N - B.mat M N := by
  ext1 i j
  have := fill_eq M N (fun i j => cvt (fa.minus fb) (cvt (fa.minus fb) (Model.Matrix.get A i j - Model.Matrix.get B i j))) junk i j
  rw [if_pos ⟨i.2, j.2⟩] at this
  have h : RepC (fa.minus fb) (A i j - B i j) :=
    ⟨Fmt.rep_minus ha hb (hA i i.2 j j.2).1 (hB i i.2 j j.2).1, Fmt.rep_minus ha hb (hA i i.2 j j.2).2 (hB i i.2 j j.2).2⟩
  have hc := cvt_repC (Proof.Matrix.minus_W ha) (by simp [Fmt.minus, Fmt.mk']) h
  unfold Model.Matrix.get at this
  rw [hc, hc] at this
  exact this

theorem C84_addAssign {fa : Fmt} (ha : 1 ≤ fa.W) (M N : ℕ) (A B : Mem Cx) (hA : AllRep fa M N A) (hB : AllRep fa M N B) :
    (addAssign fa M N A B).mat M N = (A.mat M N + B.mat M N).map (cvt fa) := by
  ext1 i j
  have := update_eq M N (fun i j v => cvt fa (cvt (fa.plus fa) (v + Model.Matrix.get B i j))) A i j
  rw [if_pos ⟨i.2, j.2⟩] at this
  have h : RepC (fa.plus fa) (A i j + B i j) :=
    ⟨Fmt.rep_plus ha ha (hA i i.2 j j.2).1 (hB i i.2 j j.2).1, Fmt.rep_plus ha ha (hA i i.2 j j.2).2 (hB i i.2 j j.2).2⟩
  unfold Model.Matrix.get at this
  rw [cvt_repC (Proof.Matrix.plus_W ha) (by simp [Fmt.plus, Fmt.mk']) h] at this
  exact this

theorem C84_subAssign {fa : Fmt} (ha : 1 ≤ fa.W) (M N : ℕ) (A B : Mem Cx) (hA : AllRep fa M N A) (hB : AllRep fa M N B) :
    (subAssign fa M N A B).mat M N = (A.mat M N - B.mat M N).map (cvt fa) := by
  ext1 i j
  have := update_eq M N (fun i j v => cvt fa (cvt (fa.minus fa) (v - Model.Matrix.get B i j))) A i j
  rw [if_pos ⟨i.2, j.2⟩] at this
  have h : RepC (fa.minus fa) (A i j - B i j) :=
    ⟨Fmt.rep_minus ha ha (hA i i.2 j j.2).1 (hB i i.2 j j.2).1, Fmt.rep_minus ha ha (hA i i.2 j j.2).2 (hB i i.2 j j.2).2⟩
  unfold Model.Matrix.get at this
  rw [cvt_repC (Proof.Matrix.minus_W ha) (by simp [Fmt.minus, Fmt.mk']) h] at this
  exact this

theorem C84_pwisemult {fa fb fp : Fmt} (hp : ProdOk fa fb fp) (M N : ℕ) (A B junk : Mem Cx) (hA : AllRep fa M N A)
    (hB : AllRep fb M N B) : (pwisemult fp M N A B junk).mat M N = (A.mat M N).hadamard (B.mat M N) := by
  ext1 i j
  have := fill_eq M N (fun i j => cvt fp (cvt fp (Model.Matrix.get A i j * Model.Matrix.get B i j))) junk i j
  rw [if_pos ⟨i.2, j.2⟩] at this
  have hc := cvt_repC hp.wide hp.full (hp.holds _ _ (hA i i.2 j j.2) (hB i i.2 j j.2))
  unfold Model.Matrix.get at this
  rw [hc, hc] at this
  exact this

theorem C84_scale {fs fa fp : Fmt} (hp : ProdOk fs fa fp) (M N : ℕ) {s : Cx} (hs : fs.Rep s.re ∧ fs.Rep s.im) (A junk : Mem Cx)
    (hA : AllRep fa M N A) : (scale fp fa M N s A junk).mat M N = (s • A.mat M N).map (cvt fa) := by
  ext1 i j
  have := fill_eq M N (fun i j => cvt fa (cvt fp (s * Model.Matrix.get A i j))) junk i j
  rw [if_pos ⟨i.2, j.2⟩] at this
  unfold Model.Matrix.get at this
  rw [cvt_repC hp.wide hp.full (hp.holds _ _ hs (hA i i.2 j j.2))] at this
  exact this

/-- The sum of all elements, each part wrapped once. -/
theorem C84_sum {fa : Fmt} (ha : 1 ≤ fa.W) (hO : fa.O = .WRAP) (M N : ℕ) (A : Mem Cx) (hA : AllRep fa M N A) :
    sum fa M N A = cvt fa (∑ i : Fin M, ∑ j : Fin N, A.mat M N i j) :=
  sum_eq hO M N A fun i hi j hj =>
    ⟨((Fmt.rep_iff ha _).mp (hA i hi j hj).1).2, ((Fmt.rep_iff ha _).mp (hA i hi j hj).2).2⟩

theorem C84_det2 (fa : Fmt) (A : Mem Cx) : det2 fa A = cvt fa (A.mat 2 2).det := by
  rw [Matrix.det_fin_two]; rfl

theorem C84_det3 (fa : Fmt) (A : Mem Cx) : det3 fa A = cvt fa (A.mat 3 3).det := by
  rw [Matrix.det_fin_three]
  unfold det3
  congr 1
  change _ = A 0 0 * A 1 1 * A 2 2 - A 0 0 * A 1 2 * A 2 1 - A 0 1 * A 1 0 * A 2 2 + A 0 1 * A 1 2 * A 2 0
    + A 0 2 * A 1 0 * A 2 1 - A 0 2 * A 1 1 * A 2 0
  ring

/-- What `operator*` computes for every matrix: each part of each element of the exact product, wrapped once into the type with
room for `N-1` products. -/
theorem C84_mul_wrapped {fa fb fp : Fmt} (hp : ProdOk fa fb fp) (M N Q : ℕ) (A B junk : Mem Cx) (hA : AllRep fa M N A)
    (hB : AllRep fb N Q B) :
    (mul fp M N Q A B junk).mat M Q = (A.mat M N * B.mat N Q).map (cvt (sumFmt fp N)) := by
  ext1 i j
  have := fill_eq M Q (fun i j => cvt (sumFmt fp N) (dot fp N A B i j)) junk i j
  rw [if_pos ⟨i.2, j.2⟩, dot_eq hp.wide hp.full N A B i j fun k hk => hp.holds _ _ (hA i i.2 k hk) (hB k hk j j.2),
    cvt_cvt_sum hp.wide] at this
  exact this

theorem mul_exact_of {fa fb fp : Fmt} (hp : ProdOk fa fb fp) (M N Q : ℕ) (A B junk : Mem Cx) (hA : AllRep fa M N A)
    (hB : AllRep fb N Q B)
    (h : ∀ (i : Fin M) (j : Fin Q), (fp.sumOf (N - 1)).Rep (∑ k : Fin N, (A i k * B k j).re) ∧
      (fp.sumOf (N - 1)).Rep (∑ k : Fin N, (A i k * B k j).im)) :
    (mul fp M N Q A B junk).mat M Q = A.mat M N * B.mat N Q := by
  rw [C84_mul_wrapped hp M N Q A B junk hA hB]
  ext1 i j
  change cvt (fp.sumOf (N - 1)) (∑ k : Fin N, A i k * B k j) = ∑ k : Fin N, A i k * B k j
  apply cvt_repC (sumOf_W hp.wide _) (by simp [Fmt.sumOf])
  unfold RepC
  rw [re_sum, im_sum]
  exact h i j

/-- `operator*` is exact whenever `N-1` and `N` need the same number of carry bits.  Missing from the full property: the other
inner dimensions, where it is false for inner dimension 2 (`C84_mul_two_wrong`) or covered by `C84_mul_signed_partial`. -/
theorem C84_mul_partial {fa fb fp : Fmt} (hp : ProdOk fa fb fp) (M N Q : ℕ) (hN : 1 ≤ N) (hroom : N ≤ 2 ^ log2Ceil (N - 1))
    (A B junk : Mem Cx) (hA : AllRep fa M N A) (hB : AllRep fb N Q B) :
    (mul fp M N Q A B junk).mat M Q = A.mat M N * B.mat N Q := by
  apply mul_exact_of hp M N Q A B junk hA hB
  intro i j
  have hr : ∀ k : Fin N, _ := fun k => hp.holds _ _ (hA i i.2 k k.2) (hB k k.2 j j.2)
  exact ⟨Fmt.rep_sum hp.wide hroom _ (fun k => (hr k).1) hN, Fmt.rep_sum hp.wide hroom _ (fun k => (hr k).2) hN⟩

/-- For signed parts `operator*` is exact for every inner dimension from 3 on.  Missing: inner dimension 2. -/
theorem C84_mul_signed_partial {fa fb fp : Fmt} (ha : 1 ≤ fa.W) (hb : 1 ≤ fb.W) (hSa : fa.S = true) (hSb : fb.S = true)
    (hp : ProdOk fa fb fp) (M N Q : ℕ) (hN : 3 ≤ N) (A B junk : Mem Cx) (hA : AllRep fa M N A) (hB : AllRep fb N Q B) :
    (mul fp M N Q A B junk).mat M Q = A.mat M N * B.mat N Q := by
  apply mul_exact_of hp M N Q A B junk hA hB
  intro i j
  obtain ⟨hI, hS⟩ := prod_I ha hb hSa hSb hp.wide hp.holds
  have hr : ∀ k : Fin N, _ := fun k => hp.holds _ _ (hA i i.2 k k.2) (hB k k.2 j j.2)
  have hbd : ∀ k : Fin N, _ := fun k => prod_abs ha hb hSa hSb (hA i i.2 k k.2) (hB k k.2 j j.2)
  exact ⟨sum_fits hp.wide hS hN hI _ (fun k => (hr k).1) fun k => (hbd k).1,
    sum_fits hp.wide hS hN hI _ (fun k => (hr k).2) fun k => (hbd k).2⟩

/-- Signed parts of any width, inner dimension 2, products in the smallest type that holds them: the matrices full of
`lo + lo*i`, with `lo` the most negative value, give a wrong product. -/
theorem C84_mul_two_wrong {fa fb : Fmt} (ha : 1 ≤ fa.W) (hb : 1 ≤ fb.W) (hSa : fa.S = true) (hSb : fb.S = true)
    (M Q : ℕ) (hM : 1 ≤ M) (hQ : 1 ≤ Q) (junk : Mem Cx) : ∃ A B : Mem Cx, AllRep fa M 2 A ∧ AllRep fb 2 Q B ∧
      (mul (prodFmt fa fb) M 2 Q A B junk).mat M Q ≠ A.mat M 2 * B.mat 2 Q := by
  have la := rep_lo ha hSa
  have lb := rep_lo hb hSb
  refine ⟨fun _ _ => ⟨-2 ^ (fa.I - 1), -2 ^ (fa.I - 1)⟩, fun _ _ => ⟨-2 ^ (fb.I - 1), -2 ^ (fb.I - 1)⟩,
    fun _ _ _ _ => ⟨la, la⟩, fun _ _ _ _ => ⟨lb, lb⟩, ?_⟩
  intro h
  rw [C84_mul_wrapped (prodFmt_ok ha hb) M 2 Q _ _ junk (fun _ _ _ _ => ⟨la, la⟩) (fun _ _ _ _ => ⟨lb, lb⟩)] at h
  have h' := congrArg QuadraticAlgebra.im (congrFun (congrFun h ⟨0, by omega⟩) ⟨0, by omega⟩)
  have hWp : 1 ≤ (sumFmt (prodFmt fa fb) 2).W := sumOf_W (prodFmt_ok ha hb).wide 1
  have hr := Fmt.rep_cvt hWp ((Mem.mat M 2 (fun _ _ => (⟨-2 ^ (fa.I - 1), -2 ^ (fa.I - 1)⟩ : Cx)) *
    Mem.mat 2 Q (fun _ _ => (⟨-2 ^ (fb.I - 1), -2 ^ (fb.I - 1)⟩ : Cx))) ⟨0, by omega⟩ ⟨0, by omega⟩).im
  have e1 : (sumFmt (prodFmt fa fb) 2).cvt ((Mem.mat M 2 (fun _ _ => (⟨-2 ^ (fa.I - 1), -2 ^ (fa.I - 1)⟩ : Cx)) *
    Mem.mat 2 Q (fun _ _ => (⟨-2 ^ (fb.I - 1), -2 ^ (fb.I - 1)⟩ : Cx))) ⟨0, by omega⟩ ⟨0, by omega⟩).im = _ := h'
  rw [e1, Fmt.rep_iff hWp] at hr
  have hb1 := hr.1
  unfold Fmt.Bnd at hb1
  have hI : (sumFmt (prodFmt fa fb) 2).I = fa.I + fb.I + 1 := by
    simp [sumFmt, Fmt.sumOf, prodFmt, Fmt.mult, hSa, log2Ceil]
  rw [if_pos (show (sumFmt (prodFmt fa fb) 2).S = true from rfl), hI, Matrix.mul_apply, im_sum, Fin.sum_univ_two] at hb1
  simp only [Mem.mat, QuadraticAlgebra.im_mul] at hb1
  have e : (2 : ℚ) ^ (fa.I + fb.I + 1 - 1) = 2 * (2 * (2 ^ (fa.I - 1) * 2 ^ (fb.I - 1))) := by
    rw [Fmt.z_add, ← Fmt.z_succ, ← Fmt.z_succ]; congr 1; ring
  have := hb1.2
  rw [e] at this
  have hp : (0 : ℚ) < 2 ^ (fa.I - 1) * 2 ^ (fb.I - 1) := mul_pos (Fmt.z_pos _) (Fmt.z_pos _)
  linarith

/-! ## The hypotheses are met -/

/-- `ac_fixed<8,4,true>` -/
def f84 : Fmt := ⟨8, 4, true, .TRN, .WRAP⟩

def exA : Mem Cx := fun i j => ⟨(i : ℚ) / 4 - 1, (j : ℚ) + 1 / 2⟩

theorem exA_rep : AllRep f84 3 3 exA := by
  intro i hi j hj
  refine ⟨⟨4 * i - 16, ?_, ?_, ?_⟩, ⟨16 * j + 8, ?_, ?_, ?_⟩⟩
  · simp [f84, minRaw]; omega
  · simp [f84, maxRaw]; omega
  · simp [f84, Fmt.val, Fmt.F, exA]; ring
  · simp [f84, minRaw]; omega
  · simp [f84, maxRaw]; omega
  · simp [f84, Fmt.val, Fmt.F, exA]; ring

example (C : Mem Cx) : (arraymultiply (prodFmt f84 f84) f84 3 3 3 exA exA C).mat 3 3 = (exA.mat 3 3 * exA.mat 3 3).map (cvt f84) :=
  C84_matrixmul (prodFmt_ok (by decide) (by decide)) f84 3 3 3 exA exA C exA_rep exA_rep

example (junk : Mem Cx) : (mul (prodFmt f84 f84) 3 3 3 exA exA junk).mat 3 3 = exA.mat 3 3 * exA.mat 3 3 :=
  C84_mul_signed_partial (by decide) (by decide) rfl rfl (prodFmt_ok (by decide) (by decide)) 3 3 3 le_rfl exA exA junk exA_rep exA_rep

example (junk : Mem Cx) : (mul (prodFmt f84 f84) 3 1 3 exA exA junk).mat 3 3 = exA.mat 3 1 * exA.mat 1 3 :=
  C84_mul_partial (prodFmt_ok (by decide) (by decide)) 3 1 3 le_rfl (by decide) exA exA junk
    (fun i hi j hj => exA_rep i hi j (by omega)) (fun i hi j hj => exA_rep i (by omega) j hj)

example (junk : Mem Cx) : (add f84 f84 3 3 exA exA junk).mat 3 3 = exA.mat 3 3 + exA.mat 3 3 :=
  C84_add (by decide) (by decide) 3 3 exA exA junk exA_rep exA_rep

example (junk : Mem Cx) : (pwisemult (prodFmt f84 f84) 3 3 exA exA junk).mat 3 3 = (exA.mat 3 3).hadamard (exA.mat 3 3) :=
  C84_pwisemult (prodFmt_ok (by decide) (by decide)) 3 3 exA exA junk exA_rep exA_rep

example : sum f84 3 3 exA = cvt f84 (∑ i : Fin 3, ∑ j : Fin 3, exA.mat 3 3 i j) := C84_sum (by decide) rfl 3 3 exA exA_rep

example (junk : Mem Cx) : (sub f84 f84 3 3 exA exA junk).mat 3 3 = exA.mat 3 3 - exA.mat 3 3 :=
  C84_sub (by decide) (by decide) 3 3 exA exA junk exA_rep exA_rep

example : (addAssign f84 3 3 exA exA).mat 3 3 = (exA.mat 3 3 + exA.mat 3 3).map (cvt f84) :=
  C84_addAssign (by decide) 3 3 exA exA exA_rep exA_rep

example : (subAssign f84 3 3 exA exA).mat 3 3 = (exA.mat 3 3 - exA.mat 3 3).map (cvt f84) :=
  C84_subAssign (by decide) 3 3 exA exA exA_rep exA_rep

example (junk : Mem Cx) : (scale (prodFmt f84 f84) f84 3 3 (exA 1 1) exA junk).mat 3 3 = (exA 1 1 • exA.mat 3 3).map (cvt f84) :=
  C84_scale (prodFmt_ok (by decide) (by decide)) 3 3 (exA_rep 1 (by decide) 1 (by decide)) exA junk exA_rep

/-- The product of complex numbers, in particular the sign of its real part. -/
example : (arraymultiply (prodFmt f84 f84) f84 1 1 1 (fun _ _ => ⟨1, 2⟩) (fun _ _ => ⟨3 / 2, 1 / 4⟩) (fun _ _ => 0)) 0 0 = ⟨1, 13 / 4⟩ := by
  decide +kernel

end Props.MatrixComplex
