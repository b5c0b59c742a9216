import Verif.Props.QrdRound
import Verif.Proof.QrdDiag

/-! # C75: errors of the QR decomposition with a real diagonal -/

namespace Props.QrdDiag
open Ac Model.QrdFixed Finset Spec.QrdArith Spec.CholArith Props.QrdRound

variable {β α κ κ' ω : Type}

/-- **C75**, any arithmetic.  If each operation is accurate in the sense of `Accurate` and `DiagAccurate`, no pair of pivots is
smaller than `ρ` and the bottom right element of the rotated matrix not smaller than `σ`, then Q*R is near A, Q is nearly unitary,
R is nearly upper triangular, and its diagonal is nearly real and nonnegative, the last element exactly. -/
theorem C75_any {o : Ops β α κ ω} {d : DiagOps α κ' ω} {vb : β → ℂ} {v : α → ℂ} {w : κ → ℂ} {wd : κ' → ℂ} {vo : ω → ℂ}
    {ok : κ → Prop} {P : α → Prop} {D X ρ σ u uL uS ε ζ H V B Y δ η : ℝ} {M : ℕ}
    (ha : Accurate o vb v w vo ok D X ρ u uL uS ε ζ) (hd : DiagAccurate o d v wd vo P X σ Y uS δ η) (hε : 0 ≤ ε) (hu : 0 ≤ u)
    (hHY : H ≤ Y) (hR : Room M (M * (M - 1) / 2) ε u ζ X (D + uL) H V B) (hM0 : 1 ≤ M) (hM : 2 * M < 2 ^ 32)
    (A : Mem β) (junk : Mem α) (Q0 R0 Q R : Mem ω)
    (hD : ∀ i < M, ∀ j < M, ‖vb (A i j)‖ ≤ D)
    (hp : ∀ p ∈ pairs o M A junk, ρ ^ 2 ≤ ‖v p.1‖ ^ 2 + ‖v p.2‖ ^ 2) (hb : σ ≤ ‖v (rotated o M A junk (M - 1) (M - 1))‖)
    (hQR : qrdDiag o d M A junk Q0 R0 = (Q, R)) :
    (∀ i < M, ∀ j < M, ‖vb (A i j) - ∑ k ∈ range M, vo (Q i k) * vo (R k j)‖ ≤
      uL + (M * (M - 1) / 2 : ℕ) * change ε u V H + V * (η + (2 + δ) * B) + M * (uS * ((1 + δ) * V + Y + uS))) ∧
    (∀ i < M, ∀ j < M, ‖∑ k ∈ range M, vo (Q i k) * star (vo (Q j k)) - (if i = j then 1 else 0)‖ ≤
      (M * (M - 1) / 2 : ℕ) * change ε u V V + δ * V ^ 2 + M * (uS * ((1 + δ) * V + (1 + δ) * V + uS))) ∧
    (∀ i < M, ∀ j < i, ‖vo (R i j)‖ ≤ B + uS) ∧ (∀ i, i + 1 < M → Posi (ζ + u + uS) (vo (R i i))) ∧
    Posi 0 (vo (R (M - 1) (M - 1))) := by
  have h := Proof.QrdRound.outputsDiag (H := H) (V := V) (B := B) ha hd hHY (M := M) (by
    rw [Proof.QrdRound.cnt_total]
    exact ⟨hε, hR.ε1, hu, hR.H0, hR.V0, hR.B0, hR.left, hR.right, hR.low, hR.HX, hR.VX⟩) hM0 hM A junk Q0 R0 hD hp hb
  rw [hQR, Proof.QrdRound.cnt_total] at h
  exact h

/-- Relative error of ac_sqrt_pwl. -/
def rel (pwl : Bool) : ℚ := if pwl then 1 / 440 else 0

/-- Bound on the new bottom right element. -/
def top (pwl : Bool) (X : ℚ) : ℚ := (1 + rel pwl) * X + 2 ^ (-32 : ℤ)

/-- Error of the product of the new bottom right element and the coefficient; `σ` is the least magnitude of the old one. -/
def polar (pwl : Bool) (X σ : ℚ) : ℚ :=
  X * (tilt 0 pwl σ X + 3 / 2 * (rel pwl + 2 ^ (-32 : ℤ) / σ)) + 2 * 2 ^ (-32 : ℤ) * top pwl X

/-- As `QrdRound.Fits`, and the extra stage fits too. -/
structure FitsDiag (pwl : Bool) (imd out : Fmt) (M : ℕ) (D X ρ σ H V B : ℚ) : Prop where
  base : Fits 2 pwl imd out M D X ρ H V B
  M0 : 1 ≤ M
  σ0 : 1 / 16384 ≤ σ
  dev : tilt 2 pwl σ X ≤ 1 / 2
  mag : top pwl X ≤ imd.maxVal
  omag : top pwl X ≤ out.maxVal
  outp : (1 + tilt 2 pwl σ X) * X ≤ out.maxVal

/-- The bound on the elements of `A - Q*R`. -/
def resBound (pwl : Bool) (out : Fmt) (M : ℕ) (X ρ σ H V B : ℚ) : ℚ :=
  2 * 2 ^ (-32 : ℤ) + (M * (M - 1) / 2 : ℕ) * change (tilt 2 pwl ρ X) (2 * 2 ^ (-32 : ℤ)) V H +
    V * (polar pwl X σ + (2 + tilt 2 pwl σ X) * B) +
    M * (2 * 2 ^ (-out.F) * ((1 + tilt 2 pwl σ X) * V + top pwl X + 2 * 2 ^ (-out.F)))

/-- The bound on the elements of `Q*Qᴴ - 1`. -/
def orthBound (pwl : Bool) (out : Fmt) (M : ℕ) (X ρ σ V : ℚ) : ℚ :=
  (M * (M - 1) / 2 : ℕ) * change (tilt 2 pwl ρ X) (2 * 2 ^ (-32 : ℤ)) V V + tilt 2 pwl σ X * V ^ 2 +
    M * (2 * 2 ^ (-out.F) * ((1 + tilt 2 pwl σ X) * V + (1 + tilt 2 pwl σ X) * V + 2 * 2 ^ (-out.F)))

/-- The operations of ac_qrd on ac_complex<ac_fixed> for a matrix of `M` rows with input type `fi`. -/
abbrev ops (fi out : Fmt) (pwl : Bool) (M : ℕ) (j0 : ℚ) := complexOps (complexImd fi M) out pwl (complexSqr (complexImd fi M)) j0
abbrev dops (fi out : Fmt) (pwl : Bool) (M : ℕ) (j0 : ℚ) := complexDiag (complexImd fi M) out pwl (complexSqr (complexImd fi M)) j0

/-- **C75**, ac_complex<ac_fixed> elements with `real_diag = true`, for `ispwl` false and true, every type, rounding mode and
overflow mode of the outputs. -/
theorem C75_complex {pwl : Bool} {fi out : Fmt} {M : ℕ} {D X ρ σ H V B : ℚ}
    (ht : FitsDiag pwl (complexImd fi M) out M D X ρ σ H V B)
    (j0 : ℚ) (A junk Q0 R0 Q R : Mem (ℚ × ℚ)) (hD : ∀ i < M, ∀ j < M, ‖cv (A i j)‖ ≤ D)
    (hp : ∀ p ∈ pairs (ops fi out pwl M j0) M A junk, (ρ : ℝ) ^ 2 ≤ ‖cv p.1‖ ^ 2 + ‖cv p.2‖ ^ 2)
    (hb : (σ : ℝ) ≤ ‖cv (rotated (ops fi out pwl M j0) M A junk (M - 1) (M - 1))‖)
    (hQR : qrdDiag (ops fi out pwl M j0) (dops fi out pwl M j0) M A junk Q0 R0 = (Q, R)) :
    (∀ i < M, ∀ j < M, ‖cv (A i j) - ∑ k ∈ range M, cv (Q i k) * cv (R k j)‖ ≤ resBound pwl out M X ρ σ H V B) ∧
    (∀ i < M, ∀ j < M, ‖∑ k ∈ range M, cv (Q i k) * star (cv (Q j k)) - (if i = j then 1 else 0)‖ ≤
      orthBound pwl out M X ρ σ V) ∧
    (∀ i < M, ∀ j < i, ‖cv (R i j)‖ ≤ ((B + 2 * 2 ^ (-out.F) : ℚ) : ℝ)) ∧
    (∀ i, i + 1 < M → |(R i i).2| ≤ posBound 2 out X ∧ -posBound 2 out X ≤ (R i i).1) ∧
    (R (M - 1) (M - 1)).2 = 0 ∧ 0 ≤ (R (M - 1) (M - 1)).1 := by
  have hs := sizes (c := 2) (k := complexSqr (complexImd fi M)) zero_le_two ht.base (Or.inr rfl)
  have ε0 := hs.ε0 (mul_nonneg zero_le_two (Fmt.z_pos _).le)
  have X0 : 0 ≤ X := ht.base.room.H0.trans ht.base.room.HX
  have dn := Proof.QrdFixed.dev_nonneg pwl ht.σ0 X0
  have hw0 : (0 : ℚ) < 2 ^ (-32 : ℤ) := Fmt.z_pos _
  have rel0 : 0 ≤ rel pwl := by unfold rel; split_ifs <;> norm_num
  have et : tilt 2 pwl σ X = Proof.QrdFixed.dev pwl σ X + 5 * (2 * 2 ^ (-32 : ℤ)) := rfl
  have hds : Proof.QrdDiag.DSizes (complexImd fi M) out pwl X σ :=
    ⟨ht.σ0, by have := ht.dev; rw [et] at this; linarith, ht.mag, ht.omag, ht.outp⟩
  have h := C75_any (H := H) (V := V) (B := B) (Proof.QrdFixed.complex_acc j0 hs) (Proof.QrdDiag.diag_acc j0 hs hds)
    (by exact_mod_cast ε0)
    (mul_nonneg zero_le_two (zpow_nonneg (by norm_num) _)) (by
      apply Rat.cast_le.2
      have h1 := ht.base.room.HX
      have h2 := mul_nonneg rel0 X0
      change H ≤ (1 + rel pwl) * X + 2 ^ (-32 : ℤ)
      linarith) (by
      have := room_cast ht.base.room
      push_cast at this ⊢
      exact this) ht.M0 ht.base.M1 A junk Q0 R0 Q R hD hp hb hQR
  obtain ⟨h1, h2, h3, h4, h5⟩ := h
  have e2 : (1 + Proof.QrdDiag.rel pwl) * X + 2 ^ (-32 : ℤ) = top pwl X := rfl
  rw [← et, e2] at h1
  rw [← et] at h2
  have ep : polar pwl X σ = Proof.QrdDiag.polarErr pwl X σ := by
    unfold polar Proof.QrdDiag.polarErr tilt Proof.QrdFixed.dev top
    rw [zero_mul, mul_zero, add_zero]; rfl
  refine ⟨fun i hi j hj => ?_, fun i hi j hj => ?_, fun i hi j hj => ?_, fun i hi => posi_cv (h4 i hi), ?_⟩
  · refine (h1 i hi j hj).trans (le_of_eq ?_)
    unfold resBound
    rw [ep]
    push_cast [change_cast]
    rfl
  · refine (h2 i hi j hj).trans (le_of_eq ?_)
    unfold orthBound
    push_cast [change_cast]
    rfl
  · refine (h3 i hi j hj).trans (le_of_eq ?_)
    push_cast
    rfl
  · obtain ⟨p1, p2⟩ := h5
    rw [neg_zero] at p2
    have p1 := abs_nonpos_iff.1 p1
    simp only [cv] at p1 p2
    exact ⟨by exact_mod_cast p1, by exact_mod_cast p2⟩

theorem fits_diag (pwl : Bool) : FitsDiag pwl (complexImd in16 2) out40 2 5 8 1 1 8 (1001 / 1000) (1 / 40000000) := by
  have h : (complexImd in16 2).maxVal = 512 - 1 / 4294967296 := by decide +kernel
  have h' : out40.maxVal = 128 - 1 / 4294967296 := by norm_num [Fmt.maxVal, Fmt.val, Fmt.F, out40, maxRaw]
  refine ⟨fits_complex pwl, by norm_num, by norm_num, ?_, ?_, ?_, ?_⟩
  · cases pwl <;> norm_num [tilt]
  · rw [h]; cases pwl <;> norm_num [top, rel]
  · rw [h']; cases pwl <;> norm_num [top, rel]
  · rw [h']; cases pwl <;> norm_num [tilt]

/-- The matrix `(1+i 2; 3 4i)` meets the hypotheses of `C75_complex`; its bottom right element after the rotation is not real. -/
example (pwl : Bool) : ∃ D X ρ σ H V B, FitsDiag pwl (complexImd in16 2) out40 2 D X ρ σ H V B ∧
    (∀ i < 2, ∀ j < 2, ‖cv (mat2 (1, 1) (2, 0) (3, 0) (0, 4) i j)‖ ≤ D) ∧
    (∀ p ∈ pairs (ops in16 out40 pwl 2 0) 2 (mat2 (1, 1) (2, 0) (3, 0) (0, 4)) (fun _ _ => 0),
      (ρ : ℝ) ^ 2 ≤ ‖cv p.1‖ ^ 2 + ‖cv p.2‖ ^ 2) ∧
    (σ : ℝ) ≤ ‖cv (rotated (ops in16 out40 pwl 2 0) 2 (mat2 (1, 1) (2, 0) (3, 0) (0, 4)) (fun _ _ => 0) 1 1)‖ ∧
    1 ≤ |(rotated (ops in16 out40 pwl 2 0) 2 (mat2 (1, 1) (2, 0) (3, 0) (0, 4)) (fun _ _ => 0) 1 1).2| ∧
    resBound pwl out40 2 X ρ σ H V B ≤ if pwl then 60 / 1000 else 1 / 1000000 := by
  refine ⟨_, _, _, _, _, _, _, fits_diag pwl, ?_, ?_, ?_, ?_, ?_⟩
  · intro i hi j hj
    have h : |(mat2 ((1 : ℚ), (1 : ℚ)) (2, 0) (3, 0) (0, 4) i j).1| + |(mat2 ((1 : ℚ), (1 : ℚ)) (2, 0) (3, 0) (0, 4) i j).2| ≤ 5 := by
      revert i j; decide +kernel
    refine (Proof.CholFns.norm_cv_le _).trans ?_
    exact_mod_cast h
  · have e : pairs (ops in16 out40 pwl 2 0) 2 (mat2 (1, 1) (2, 0) (3, 0) (0, 4)) (fun _ _ => 0) = [((3, 0), (1, 1))] := by
      cases pwl <;> decide +kernel
    rw [e]
    intro p hp
    rw [List.mem_singleton.1 hp, Proof.CholFns.norm_cv_sq, Proof.CholFns.norm_cv_sq]
    norm_num
  · refine le_trans ?_ (Proof.CholFns.im_cv _)
    apply Rat.cast_le.2
    cases pwl <;> decide +kernel
  · cases pwl <;> decide +kernel
  · cases pwl <;> norm_num [resBound, polar, top, rel, tilt, change, Fmt.F, out40]

/-- The outputs for a matrix of two rows. -/
def run2 (fi out : Fmt) (pwl : Bool) (a b c d : ℚ × ℚ) : Mem (ℚ × ℚ) × Mem (ℚ × ℚ) :=
  qrdDiag (ops fi out pwl 2 0) (dops fi out pwl 2 0) 2 (mat2 a b c d) (fun _ _ => 0) (fun _ _ => 0) (fun _ _ => 0)

/-- Not so for a bottom right element of magnitude 2^-17: its inverse wraps in the type of `i_mag_br`, and the last column of Q,
of magnitude 1 without `real_diag`, is below 1/1000. -/
theorem C75_small_wrong (pwl : Bool) : ∀ i < 2,
    |((run2 ⟨24, 4, true, .TRN, .WRAP⟩ out40 pwl (1, 0) (0, 0) (0, 0) (1 / 131072, 0)).1 i 1).1| < 1 / 1000 ∧
    ((run2 ⟨24, 4, true, .TRN, .WRAP⟩ out40 pwl (1, 0) (0, 0) (0, 0) (1 / 131072, 0)).1 i 1).2 = 0 := by
  cases pwl <;> decide +kernel

/-- Nor for a singular matrix, for which the last column of Q is 0 with PWL functions (and `ac_div` divides by zero without). -/
theorem C75_singular_wrong : ∀ i < 2, (run2 in16 out40 true (1, 0) (0, 0) (0, 0) (0, 0)).1 i 1 = 0 := by decide +kernel

end Props.QrdDiag
