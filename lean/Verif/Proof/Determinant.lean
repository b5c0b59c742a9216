import Verif.Model.Determinant
import Verif.Proof.Matrix
import Mathlib.LinearAlgebra.Matrix.Determinant.Basic

/-! # Proofs about ac_determinant -/

namespace Proof.Determinant
open Ac Model.Determinant Proof.Matrix

theorem minor_mat (A : Mem ℚ) (n : ℕ) (j : Fin (n + 1)) :
    (minor A j).mat n n = (A.mat (n + 1) (n + 1)).submatrix Fin.succ j.succAbove := by
  ext p q
  simp only [Mem.mat, minor, Matrix.submatrix_apply, Fin.val_succ]
  congr 1
  unfold Fin.succAbove
  by_cases h : q.castSucc < j
  · rw [if_pos h, if_pos (show (q : ℕ) + 1 ≤ j from h)]; rfl
  · rw [if_neg h, if_neg (fun h' => h (show (q : ℕ) + 1 ≤ j from h'))]; rfl

theorem base_exact2 {fi : Fmt} (hW : 1 ≤ fi.W) {b : Fmt} (hb : b = ⟨2 * fi.W + 1, 2 * fi.I + 1, true, .RND, .SAT⟩)
    {x y : ℚ} (hx : fi.Rep x) (hy : fi.Rep y) : b.Rep (x * y) := by
  have h := Fmt.rep_mult hW hW hx hy
  have hm := mult_W (g := fi) hW
  have hbW : 1 ≤ b.W := by rw [hb]; simp
  rw [Fmt.rep_iff hm] at h
  rw [Fmt.rep_iff hbW]
  have hF : b.F = (fi.mult fi).F := by rw [hb]; unfold Fmt.mult Fmt.F; simp only; push_cast; ring
  refine ⟨?_, Fmt.grid_same_F hF.symm h.2⟩
  have hbd := h.1
  have hz := Fmt.z_pos (fi.I + fi.I)
  unfold Fmt.Bnd at hbd ⊢
  rw [if_pos (by rw [hb])]
  have hI : b.I - 1 = fi.I + fi.I := by rw [hb]; simp only; ring
  rw [hI]
  have hmI : (fi.mult fi).I = fi.I + fi.I := rfl
  rw [hmI] at hbd
  have := Fmt.z_le (show fi.I + fi.I - 1 ≤ fi.I + fi.I by omega)
  split_ifs at hbd <;> constructor <;> linarith [hbd.1, hbd.2]

theorem base_exact {fi : Fmt} (hW : 1 ≤ fi.W) {b : Fmt} (hb : b = ⟨2 * fi.W + 1, 2 * fi.I + 1, true, .RND, .SAT⟩)
    {x y z w : ℚ} (hx : fi.Rep x) (hy : fi.Rep y) (hz : fi.Rep z) (hw : fi.Rep w) : b.Rep (x * y - z * w) := by
  have h1 := Fmt.rep_mult hW hW hx hy
  have h2 := Fmt.rep_mult hW hW hz hw
  have hm := mult_W (g := fi) hW
  have hbW : 1 ≤ b.W := by rw [hb]; simp
  rw [Fmt.rep_iff hm] at h1 h2
  rw [Fmt.rep_iff hbW]
  have hF : b.F = (fi.mult fi).F := by rw [hb]; unfold Fmt.mult Fmt.F; simp only; push_cast; ring
  refine ⟨?_, Fmt.grid_same_F hF.symm (Fmt.grid_sub h1.2 h2.2)⟩
  have hb1 := h1.1
  have hb2 := h2.1
  unfold Fmt.Bnd at hb1 hb2 ⊢
  rw [if_pos (by rw [hb])]
  have hI : b.I - 1 = fi.I + fi.I := by rw [hb]; simp only; ring
  rw [hI]
  have hmI : (fi.mult fi).I = fi.I + fi.I := rfl
  rw [hmI] at hb1 hb2
  have hs := Fmt.z_succ (fi.I + fi.I - 1)
  rw [show fi.I + fi.I - 1 + 1 = fi.I + fi.I by ring] at hs
  split_ifs at hb1 hb2 <;> constructor <;> linarith [hb1.1, hb1.2, hb2.1, hb2.2]

theorem rep_minor {fi : Fmt} {n : ℕ} {A : Mem ℚ} (hA : ∀ i < n + 1, ∀ j < n + 1, fi.Rep (A i j)) (j : ℕ) :
    ∀ p < n, ∀ q < n, fi.Rep (minor A j p q) := by
  intro p hp q hq
  unfold minor
  split_ifs
  · exact hA _ (by omega) _ (by omega)
  · exact hA _ (by omega) _ (by omega)

end Proof.Determinant
