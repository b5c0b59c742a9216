import Verif.Proof.QrdFixed
import Mathlib.Tactic.NormNum

/-! # C73: errors of the QR decomposition -/

namespace Props.QrdRound
open Ac Model.QrdFixed Finset Spec.QrdArith Spec.CholArith

variable {β α κ ω : Type}

/-- What one rotation can change the inner product of two columns of norms up to `a` and `b`: `ε` is its deviation from a
unitary one, `u` the rounding error of an element. -/
def change {K : Type} [Field K] (ε u a b : K) : K := ε * (a * b) + 2 * u * (a + b) + 2 * u ^ 2

/-- Bounds that the rotations cannot leave: `H` for a column of the rotated matrix, `V` for one of the accumulated rotations,
`B` for what a column has below the diagonal. `n` is the number of rotations, `E` bounds the elements of the stored matrix. -/
structure Room {K : Type} [Field K] [LinearOrder K] (M n : ℕ) (ε u ζ X E H V B : K) : Prop where
  ε1 : ε ≤ 1
  H0 : 0 ≤ H
  V0 : 0 ≤ V
  B0 : 0 ≤ B
  left : M * E ^ 2 + n * change ε u H H ≤ H ^ 2
  right : 1 + n * change ε u V V ≤ V ^ 2
  low : M * (ζ + u) ^ 2 + n * change ε u B B ≤ B ^ 2
  HX : H ≤ X
  VX : V ≤ X

/-- **C73**, any arithmetic.  If each operation on elements is accurate in the sense of `Accurate`, and no pair of pivots is
smaller than `ρ`, then Q*R is near A, Q is nearly unitary and R is nearly upper triangular, with a diagonal that is nearly real and
nonnegative except for its last element. -/
theorem C73_any {o : Ops β α κ ω} {vb : β → ℂ} {v : α → ℂ} {w : κ → ℂ} {vo : ω → ℂ} {ok : κ → Prop}
    {D X ρ u uL uS ε ζ H V B : ℝ} {M : ℕ} (ha : Accurate o vb v w vo ok D X ρ u uL uS ε ζ) (hε : 0 ≤ ε) (hu : 0 ≤ u)
    (hR : Room M (M * (M - 1) / 2) ε u ζ X (D + uL) H V B) (hM : 2 * M < 2 ^ 32) (A : Mem β) (junk : Mem α) (Q0 R0 Q R : Mem ω)
    (hD : ∀ i < M, ∀ j < M, ‖vb (A i j)‖ ≤ D)
    (hp : ∀ p ∈ pairs o M A junk, ρ ^ 2 ≤ ‖v p.1‖ ^ 2 + ‖v p.2‖ ^ 2) (hQR : qrd o M A junk Q0 R0 = (Q, R)) :
    (∀ i < M, ∀ j < M, ‖vb (A i j) - ∑ k ∈ range M, vo (Q i k) * vo (R k j)‖ ≤
      uL + (M * (M - 1) / 2 : ℕ) * change ε u V H + M * (uS * (V + H + uS))) ∧
    (∀ i < M, ∀ j < M, ‖∑ k ∈ range M, vo (Q i k) * star (vo (Q j k)) - (if i = j then 1 else 0)‖ ≤
      (M * (M - 1) / 2 : ℕ) * change ε u V V + M * (uS * (V + V + uS))) ∧
    (∀ i < M, ∀ j < i, ‖vo (R i j)‖ ≤ B + uS) ∧ ∀ i, i + 1 < M → Posi (ζ + u + uS) (vo (R i i)) := by
  have h := Proof.QrdRound.outputs (H := H) (V := V) (B := B) ha (M := M) (by
    rw [Proof.QrdRound.cnt_total]
    exact ⟨hε, hR.ε1, hu, hR.H0, hR.V0, hR.B0, hR.left, hR.right, hR.low, hR.HX, hR.VX⟩) hM A junk Q0 R0 hD hp
  rw [hQR, Proof.QrdRound.cnt_total] at h
  exact h

/-- Deviation of a rotation from a unitary one: `c` is the number of parts of an element, the PWL inverse root contributes
3/2000, the rest is rounding to 32 fraction bits. -/
def tilt (c : ℚ) (pwl : Bool) (ρ X : ℚ) : ℚ :=
  (if pwl then 3 / 2000 else 0) + 2 ^ (-32 : ℤ) * (3 * X + 3 / ρ + 2 / ρ ^ 2) + 5 * (c * 2 ^ (-32 : ℤ))

/-- Signed output type and an intermediate type with at least two integer bits; inputs up to `D`, pivot pairs from `ρ`, columns
up to `X` (bounds `H`, `V` and `B` as in `Room`) fit. -/
structure Fits (c : ℚ) (pwl : Bool) (imd out : Fmt) (M : ℕ) (D X ρ H V B : ℚ) : Prop where
  outW : 1 ≤ out.W
  outS : out.S = true
  int : 2 ≤ imd.I
  M1 : 2 * M < 2 ^ 32
  ρ0 : 1 / 16384 ≤ ρ
  X1 : X ≤ 268435456
  inp : D ≤ X
  rot : (1 + tilt c pwl ρ X) * X ≤ imd.maxVal
  outp : X ≤ out.maxVal
  dev : tilt c pwl ρ X ≤ 1 / 2
  room : Room M (M * (M - 1) / 2) (tilt c pwl ρ X) (c * 2 ^ (-32 : ℤ)) (2 * (c * 2 ^ (-32 : ℤ)) * X) X (D + c * 2 ^ (-32 : ℤ)) H V B

/-- The bound on the elements of `A - Q*R`. -/
def resBound (c : ℚ) (pwl : Bool) (out : Fmt) (M : ℕ) (X ρ H V : ℚ) : ℚ :=
  c * 2 ^ (-32 : ℤ) + (M * (M - 1) / 2 : ℕ) * change (tilt c pwl ρ X) (c * 2 ^ (-32 : ℤ)) V H +
    M * (c * 2 ^ (-out.F) * (V + H + c * 2 ^ (-out.F)))

/-- The bound on the elements of `Q*Qᴴ - 1`. -/
def orthBound (c : ℚ) (pwl : Bool) (out : Fmt) (M : ℕ) (X ρ V : ℚ) : ℚ :=
  (M * (M - 1) / 2 : ℕ) * change (tilt c pwl ρ X) (c * 2 ^ (-32 : ℤ)) V V + M * (c * 2 ^ (-out.F) * (V + V + c * 2 ^ (-out.F)))

/-- What the elements on the diagonal of R but the last one lack of being real and nonnegative. -/
def posBound (c : ℚ) (out : Fmt) (X : ℚ) : ℚ := 2 * (c * 2 ^ (-32 : ℤ)) * X + c * 2 ^ (-32 : ℤ) + c * 2 ^ (-out.F)

theorem imd_max (fi : Fmt) (add : ℕ) (h : 2 ≤ (imdFmt fi add).I) :
    (imdFmt fi add).F = 32 ∧ 1 ≤ (imdFmt fi add).W ∧ (imdFmt fi add).maxVal = 2 ^ ((imdFmt fi add).I - 1) - 2 ^ (-32 : ℤ) := by
  have hI : (imdFmt fi add).I = fi.I + add := rfl
  have hW : (imdFmt fi add).W = (fi.I + add + 32).toNat := rfl
  have hF : (imdFmt fi add).F = 32 := by unfold Fmt.F; rw [hI, hW]; omega
  rw [hI] at h
  refine ⟨hF, by omega, ?_⟩
  unfold Fmt.maxVal Fmt.val
  rw [hF, hI, hW]
  have e : (imdFmt fi add).S = true := rfl
  rw [e]
  simp only [maxRaw, if_true]
  obtain ⟨n, hn⟩ : ∃ n : ℕ, (fi.I + add + 32).toNat - 1 = n := ⟨_, rfl⟩
  have hi : fi.I + add - 1 = n + -32 := by omega
  rw [hn, hi, zpow_add₀ (by norm_num), zpow_natCast]
  push_cast
  ring

theorem unsigned_max {f : Fmt} (hS : f.S = false) (hF : f.F = 32) (hI : 0 ≤ f.I) : f.maxVal = 2 ^ f.I - 2 ^ (-32 : ℤ) := by
  have hW : f.W = (f.I + 32).toNat := by unfold Fmt.F at hF; omega
  unfold Fmt.maxVal Fmt.val
  rw [hF, hS, hW]
  simp only [maxRaw, Bool.false_eq_true, if_false]
  obtain ⟨n, hn⟩ : ∃ n : ℕ, (f.I + 32).toNat = n := ⟨_, rfl⟩
  have hi : f.I = n + -32 := by omega
  rw [hn, hi, zpow_add₀ (by norm_num), zpow_natCast]
  push_cast
  ring

theorem sizes {c : ℚ} (hc : 0 ≤ c) {pwl : Bool} {fi out : Fmt} {add M : ℕ} {D X ρ H V B : ℚ} {k : ℤ}
    (ht : Fits c pwl (imdFmt fi add) out M D X ρ H V B) (hk : k = 2 * (imdFmt fi add).I - 1 ∨ k = 2 * (imdFmt fi add).I) :
    Proof.QrdFixed.Sizes (imdFmt fi add) out pwl k D X ρ (tilt c pwl ρ X) (c * 2 ^ (-32 : ℤ)) := by
  obtain ⟨m1, m2, m3⟩ := imd_max fi add ht.int
  have hI := ht.int
  have X0 : 0 ≤ X := ht.room.H0.trans ht.room.HX
  have hw : (2 : ℚ) ^ (-32 : ℤ) = 1 / 4294967296 := by norm_num
  have hw0 : 0 ≤ c * (2 : ℚ) ^ (-32 : ℤ) := mul_nonneg hc (Fmt.z_pos _).le
  have d0 : Proof.QrdFixed.dev pwl ρ X + 5 * (c * 2 ^ (-32 : ℤ)) = tilt c pwl ρ X := rfl
  have d1 := Proof.QrdFixed.dev_nonneg pwl ht.ρ0 X0
  have t0 : 0 ≤ tilt c pwl ρ X := by linarith
  have hrot := ht.rot
  have hX : X ≤ (imdFmt fi add).maxVal := by
    have := mul_nonneg t0 X0
    linarith
  rw [m3] at hX
  have p2 : (2 : ℚ) ≤ 2 ^ ((imdFmt fi add).I - 1) := by
    have := zpow_le_zpow_right₀ (show (1 : ℚ) ≤ 2 by norm_num) (show (1 : ℤ) ≤ (imdFmt fi add).I - 1 by omega)
    rwa [zpow_one] at this
  have Fs : (sqrFmt k).F = 32 := by simp only [Fmt.F, sqrFmt]; omega
  have Fr : (rootFmt k).F = 32 := by simp only [Fmt.F, rootFmt]; omega
  have e1 : (sqrFmt k).maxVal = 2 ^ k - 2 ^ (-32 : ℤ) := unsigned_max rfl Fs (by simp only [sqrFmt]; omega)
  have e2 : (rootFmt k).maxVal = 2 ^ (imdFmt fi add).I - 2 ^ (-32 : ℤ) := by
    have h1 : (rootFmt k).I = (imdFmt fi add).I := by simp only [rootFmt]; omega
    rw [unsigned_max rfl Fr (by omega), h1]
  have e3 : (2 : ℚ) ^ (imdFmt fi add).I = 2 * 2 ^ ((imdFmt fi add).I - 1) := by
    rw [← zpow_one_add₀ (by norm_num)]; congr 1; omega
  refine ⟨ht.outW, ht.outS, m2, rfl, rfl, m1, by omega, ht.ρ0, X0, ht.X1, ?_, ?_, ?_, ?_, ht.rot, ht.outp, ?_, d0⟩
  · rw [e1]
    have h1 : (2 : ℚ) ^ (2 * (imdFmt fi add).I - 1) ≤ 2 ^ k := zpow_le_zpow_right₀ (by norm_num) (by omega)
    have h2 : (2 : ℚ) ^ (2 * (imdFmt fi add).I - 1) = 2 * (2 ^ ((imdFmt fi add).I - 1) * 2 ^ ((imdFmt fi add).I - 1)) := by
      rw [← zpow_add₀ (by norm_num), ← zpow_one_add₀ (by norm_num)]; congr 1; omega
    rw [h2] at h1
    generalize (2 : ℚ) ^ ((imdFmt fi add).I - 1) = y at *
    rw [hw] at hX ⊢
    have h3 := mul_le_mul (show X ≤ y by linarith) (show X ≤ y by linarith) X0 (by linarith)
    have h4 := mul_le_mul p2 p2 (by norm_num) (by linarith)
    rw [pow_two]
    linarith
  · rw [e2, e3, hw]; rw [hw] at hX; linarith
  · rw [m3, hw]; linarith
  · rw [m3]; exact ht.inp.trans hX
  · have := ht.dev
    linarith

theorem room_cast {M n : ℕ} {ε u ζ X E H V B : ℚ} (h : Room M n ε u ζ X E H V B) :
    Room M n (ε : ℝ) (u : ℝ) (ζ : ℝ) (X : ℝ) (E : ℝ) (H : ℝ) (V : ℝ) (B : ℝ) := by
  obtain ⟨h1, h2, h3, h4, h5, h6, h7, h8, h9⟩ := h
  unfold change at h5 h6 h7
  refine ⟨by exact_mod_cast h1, by exact_mod_cast h2, by exact_mod_cast h3, by exact_mod_cast h4, ?_, ?_, ?_, by exact_mod_cast h8,
    by exact_mod_cast h9⟩ <;> unfold change
  · exact_mod_cast h5
  · exact_mod_cast h6
  · exact_mod_cast h7

theorem change_cast (ε u a b : ℚ) : ((change ε u a b : ℚ) : ℝ) = change (ε : ℝ) u a b := by unfold change; push_cast; rfl

open Proof.CholFns in
/-- **C73**, ac_fixed elements, for `ispwl` false and true, every type, rounding mode and overflow mode of the outputs. -/
theorem C73_real {pwl : Bool} {fi out : Fmt} {M : ℕ} {D X ρ H V B : ℚ} (ht : Fits 1 pwl (realImd fi M) out M D X ρ H V B) (j0 : ℚ)
    (A junk Q0 R0 Q R : Mem ℚ) (hD : ∀ i < M, ∀ j < M, |A i j| ≤ D)
    (hp : ∀ p ∈ pairs (realOps (realImd fi M) out pwl (realSqr (realImd fi M)) j0) M A junk, ρ ^ 2 ≤ p.1 ^ 2 + p.2 ^ 2)
    (hQR : qrd (realOps (realImd fi M) out pwl (realSqr (realImd fi M)) j0) M A junk Q0 R0 = (Q, R)) :
    (∀ i < M, ∀ j < M, |A i j - ∑ k ∈ range M, Q i k * R k j| ≤ resBound 1 pwl out M X ρ H V) ∧
    (∀ i < M, ∀ j < M, |∑ k ∈ range M, Q i k * Q j k - (if i = j then 1 else 0)| ≤ orthBound 1 pwl out M X ρ V) ∧
    (∀ i < M, ∀ j < i, |R i j| ≤ B + 2 ^ (-out.F)) ∧ ∀ i, i + 1 < M → -posBound 1 out X ≤ R i i := by
  have hs := sizes (c := 1) (k := realSqr (realImd fi M)) zero_le_one ht (Or.inl rfl)
  have ε0 := hs.ε0 (by rw [one_mul]; exact (Fmt.z_pos _).le)
  have hroom := ht.room
  rw [one_mul] at hs hroom
  have h := C73_any (H := H) (V := V) (B := B) (Proof.QrdFixed.real_acc j0 hs) (by exact_mod_cast ε0)
    (zpow_nonneg (by norm_num) _) (by
      have := room_cast hroom
      push_cast at this ⊢
      exact this) ht.M1 A junk Q0 R0 Q R
    (fun i hi j hj => by rw [norm_rv]; exact Rat.cast_le.2 (hD i hi j hj))
    (fun p hp' => by
      rw [Proof.QrdFixed.norm_rv_sq, Proof.QrdFixed.norm_rv_sq]
      have := hp p hp'
      rw [pow_two p.1, pow_two p.2] at this
      exact_mod_cast this) hQR
  obtain ⟨h1, h2, h3, h4⟩ := h
  refine ⟨fun i hi j hj => ?_, fun i hi j hj => ?_, fun i hi j hj => ?_, fun i hi => ?_⟩
  · have := h1 i hi j hj
    have e : rv (A i j) - ∑ k ∈ range M, rv (Q i k) * rv (R k j) = rv (A i j - ∑ k ∈ range M, Q i k * R k j) := by
      unfold rv; push_cast; rfl
    rw [e, norm_rv] at this
    apply (Rat.cast_le (K := ℝ)).1
    refine this.trans (le_of_eq ?_)
    unfold resBound
    rw [one_mul, one_mul, Rat.cast_add, Rat.cast_add, Rat.cast_mul, change_cast]
    push_cast
    rfl
  · have := h2 i hi j hj
    have e : ∑ k ∈ range M, rv (Q i k) * star (rv (Q j k)) - (if i = j then 1 else 0) =
        rv (∑ k ∈ range M, Q i k * Q j k - (if i = j then 1 else 0)) := by
      simp only [star_rv]
      unfold rv
      split_ifs <;> push_cast <;> rfl
    rw [e, norm_rv] at this
    apply (Rat.cast_le (K := ℝ)).1
    refine this.trans (le_of_eq ?_)
    unfold orthBound
    rw [one_mul, one_mul, Rat.cast_add, Rat.cast_mul, change_cast]
    push_cast
    rfl
  · have := h3 i hi j hj
    rw [norm_rv] at this
    apply (Rat.cast_le (K := ℝ)).1
    rw [Rat.cast_add, u_cast]; exact this
  · have := (h4 i hi).2
    apply (Rat.cast_le (K := ℝ)).1
    have e : (rv (R i i)).re = (R i i : ℝ) := Complex.ofReal_re _
    rw [e] at this
    refine le_trans (le_of_eq ?_) this
    unfold posBound
    push_cast
    ring

theorem posi_cv {out : Fmt} {X : ℚ} {x : ℚ × ℚ}
    (h : Posi (2 * (2 * 2 ^ (-32 : ℤ)) * (X : ℝ) + 2 * 2 ^ (-32 : ℤ) + 2 * 2 ^ (-out.F)) (cv x)) :
    |x.2| ≤ posBound 2 out X ∧ -posBound 2 out X ≤ x.1 := by
  have e : ((posBound 2 out X : ℚ) : ℝ) = 2 * (2 * 2 ^ (-32 : ℤ)) * (X : ℝ) + 2 * 2 ^ (-32 : ℤ) + 2 * 2 ^ (-out.F) := by
    unfold posBound; push_cast; rfl
  rw [← e] at h
  obtain ⟨h1, h2⟩ := h
  simp only [cv] at h1 h2
  exact ⟨by exact_mod_cast h1, by exact_mod_cast h2⟩

/-- **C73**, ac_complex<ac_fixed> elements with `real_diag = false`, for `ispwl` false and true, every type, rounding mode and
overflow mode of the outputs. -/
theorem C73_complex {pwl : Bool} {fi out : Fmt} {M : ℕ} {D X ρ H V B : ℚ} (ht : Fits 2 pwl (complexImd fi M) out M D X ρ H V B)
    (j0 : ℚ) (A junk Q0 R0 Q R : Mem (ℚ × ℚ)) (hD : ∀ i < M, ∀ j < M, ‖cv (A i j)‖ ≤ D)
    (hp : ∀ p ∈ pairs (complexOps (complexImd fi M) out pwl (complexSqr (complexImd fi M)) j0) M A junk,
      (ρ : ℝ) ^ 2 ≤ ‖cv p.1‖ ^ 2 + ‖cv p.2‖ ^ 2)
    (hQR : qrd (complexOps (complexImd fi M) out pwl (complexSqr (complexImd fi M)) j0) M A junk Q0 R0 = (Q, R)) :
    (∀ i < M, ∀ j < M, ‖cv (A i j) - ∑ k ∈ range M, cv (Q i k) * cv (R k j)‖ ≤ resBound 2 pwl out M X ρ H V) ∧
    (∀ i < M, ∀ j < M, ‖∑ k ∈ range M, cv (Q i k) * star (cv (Q j k)) - (if i = j then 1 else 0)‖ ≤
      orthBound 2 pwl out M X ρ V) ∧
    (∀ i < M, ∀ j < i, ‖cv (R i j)‖ ≤ ((B + 2 * 2 ^ (-out.F) : ℚ) : ℝ)) ∧
    ∀ i, i + 1 < M → |(R i i).2| ≤ posBound 2 out X ∧ -posBound 2 out X ≤ (R i i).1 := by
  have hs := sizes (c := 2) (k := complexSqr (complexImd fi M)) zero_le_two ht (Or.inr rfl)
  have ε0 := hs.ε0 (mul_nonneg zero_le_two (Fmt.z_pos _).le)
  have h := C73_any (H := H) (V := V) (B := B) (Proof.QrdFixed.complex_acc j0 hs) (by exact_mod_cast ε0)
    (mul_nonneg zero_le_two (zpow_nonneg (by norm_num) _)) (by
      have := room_cast ht.room
      push_cast at this ⊢
      exact this) ht.M1 A junk Q0 R0 Q R hD hp hQR
  obtain ⟨h1, h2, h3, h4⟩ := h
  refine ⟨fun i hi j hj => ?_, fun i hi j hj => ?_, fun i hi j hj => ?_, fun i hi => ?_⟩
  · refine (h1 i hi j hj).trans (le_of_eq ?_)
    unfold resBound
    push_cast [change_cast]
    rfl
  · refine (h2 i hi j hj).trans (le_of_eq ?_)
    unfold orthBound
    push_cast [change_cast]
    rfl
  · refine (h3 i hi j hj).trans (le_of_eq ?_)
    push_cast
    rfl
  · exact posi_cv (h4 i hi)

/-- A matrix of two rows. -/
def mat2 {α : Type} (a b c d : α) : Mem α := fun i j => if i = 0 then (if j = 0 then a else b) else (if j = 0 then c else d)

/-- The input and output types of the examples. -/
def in16 : Fmt := ⟨16, 8, true, .TRN, .WRAP⟩
def out40 : Fmt := ⟨40, 8, true, .TRN, .WRAP⟩

theorem fits_real (pwl : Bool) : Fits 1 pwl (realImd in16 2) out40 2 4 6 1 6 (1001 / 1000) (1 / 100000000) := by
  have h : (realImd in16 2).maxVal = 256 - 1 / 4294967296 := by decide +kernel
  have h' : out40.maxVal = 128 - 1 / 4294967296 := by norm_num [Fmt.maxVal, Fmt.val, Fmt.F, out40, maxRaw]
  refine ⟨by decide, rfl, by decide, by norm_num, by norm_num, by norm_num, by norm_num, ?_, ?_, ?_, ⟨?_, by norm_num, by norm_num,
    by norm_num, ?_, ?_, ?_, by norm_num, by norm_num⟩⟩
  · rw [h]; cases pwl <;> norm_num [tilt]
  · rw [h']; norm_num
  all_goals cases pwl <;> norm_num [tilt, change]

/-- The matrix `(1 2; 3 4)` meets the hypotheses of `C73_real`; the errors are below 5e-8 and, with PWL functions, 0.0095. -/
example (pwl : Bool) : ∃ D X ρ H V B, Fits 1 pwl (realImd in16 2) out40 2 D X ρ H V B ∧
    (∀ i < 2, ∀ j < 2, |mat2 (1 : ℚ) 2 3 4 i j| ≤ D) ∧
    (∀ p ∈ pairs (realOps (realImd in16 2) out40 pwl (realSqr (realImd in16 2)) 0) 2 (mat2 1 2 3 4) (fun _ _ => 0),
      ρ ^ 2 ≤ p.1 ^ 2 + p.2 ^ 2) ∧
    resBound 1 pwl out40 2 X ρ H V ≤ if pwl then 95 / 10000 else 1 / 20000000 := by
  refine ⟨_, _, _, _, _, _, fits_real pwl, by decide +kernel, ?_, ?_⟩
  · have e : pairs (realOps (realImd in16 2) out40 pwl (realSqr (realImd in16 2)) 0) 2 (mat2 1 2 3 4) (fun _ _ => 0) = [(3, 1)] := by
      cases pwl <;> decide +kernel
    rw [e]
    norm_num
  · cases pwl <;> norm_num [resBound, tilt, change, Fmt.F, out40]

theorem fits_complex (pwl : Bool) : Fits 2 pwl (complexImd in16 2) out40 2 5 8 1 8 (1001 / 1000) (1 / 40000000) := by
  have h : (complexImd in16 2).maxVal = 512 - 1 / 4294967296 := by decide +kernel
  have h' : out40.maxVal = 128 - 1 / 4294967296 := by norm_num [Fmt.maxVal, Fmt.val, Fmt.F, out40, maxRaw]
  refine ⟨by decide, rfl, by decide, by norm_num, by norm_num, by norm_num, by norm_num, ?_, ?_, ?_, ⟨?_, by norm_num, by norm_num,
    by norm_num, ?_, ?_, ?_, by norm_num, by norm_num⟩⟩
  · rw [h]; cases pwl <;> norm_num [tilt]
  · rw [h']; norm_num
  all_goals cases pwl <;> norm_num [tilt, change]

/-- The matrix `(1+i 2; 3 4i)` meets the hypotheses of `C73_complex`. -/
example (pwl : Bool) : ∃ D X ρ H V B, Fits 2 pwl (complexImd in16 2) out40 2 D X ρ H V B ∧
    (∀ i < 2, ∀ j < 2, ‖cv (mat2 (1, 1) (2, 0) (3, 0) (0, 4) i j)‖ ≤ D) ∧
    (∀ p ∈ pairs (complexOps (complexImd in16 2) out40 pwl (complexSqr (complexImd in16 2)) 0) 2 (mat2 (1, 1) (2, 0) (3, 0) (0, 4))
      (fun _ _ => 0), (ρ : ℝ) ^ 2 ≤ ‖cv p.1‖ ^ 2 + ‖cv p.2‖ ^ 2) ∧
    resBound 2 pwl out40 2 X ρ H V ≤ if pwl then 13 / 1000 else 1 / 10000000 := by
  refine ⟨_, _, _, _, _, _, fits_complex pwl, ?_, ?_, ?_⟩
  · intro i hi j hj
    have h : |(mat2 ((1 : ℚ), (1 : ℚ)) (2, 0) (3, 0) (0, 4) i j).1| + |(mat2 ((1 : ℚ), (1 : ℚ)) (2, 0) (3, 0) (0, 4) i j).2| ≤ 5 := by
      revert i j; decide +kernel
    refine (Proof.CholFns.norm_cv_le _).trans ?_
    exact_mod_cast h
  · have e : pairs (complexOps (complexImd in16 2) out40 pwl (complexSqr (complexImd in16 2)) 0) 2 (mat2 (1, 1) (2, 0) (3, 0) (0, 4))
        (fun _ _ => 0) = [((3, 0), (1, 1))] := by
      cases pwl <;> decide +kernel
    rw [e]
    intro p hp
    rw [List.mem_singleton.1 hp, Proof.CholFns.norm_cv_sq, Proof.CholFns.norm_cv_sq]
    norm_num
  · cases pwl <;> norm_num [resBound, tilt, change, Fmt.F, out40]

/-- The outputs for a matrix of two rows. -/
def run2 (fi out : Fmt) (pwl : Bool) (a b c d : ℚ) : Mem ℚ × Mem ℚ :=
  qrd (realOps (realImd fi 2) out pwl (realSqr (realImd fi 2)) 0) 2 (mat2 a b c d) (fun _ _ => 0) (fun _ _ => 0) (fun _ _ => 0)

/-- Not so for a pivot pair of magnitude 2^-16, although `(0 1; 2^-16 0)` is exact in ac_fixed<24,4>: 2^16 wraps to 0 in the
type of `i_root`, and Q and R are 0. -/
theorem C73_small_pivot_wrong : ∀ i < 2, ∀ j < 2, (run2 ⟨24, 4, true, .TRN, .WRAP⟩ out40 false 0 1 (1 / 65536) 0).1 i j = 0 ∧
    (run2 ⟨24, 4, true, .TRN, .WRAP⟩ out40 false 0 1 (1 / 65536) 0).2 i j = 0 := by decide +kernel

/-- Not so for large elements: the inverse of a root above 2^32 truncates to 0, and Q and R are 0, with and without PWL functions. -/
theorem C73_large_wrong (pwl : Bool) : ∀ i < 2, ∀ j < 2,
    (run2 ⟨40, 36, true, .TRN, .WRAP⟩ ⟨80, 40, true, .TRN, .WRAP⟩ pwl 8589934592 0 0 1).1 i j = 0 ∧
    (run2 ⟨40, 36, true, .TRN, .WRAP⟩ ⟨80, 40, true, .TRN, .WRAP⟩ pwl 8589934592 0 0 1).2 i j = 0 := by
  cases pwl <;> decide +kernel

/-- Not so for a type with few integer bits: the unit matrix saturates in the intermediate type, and the diagonal of Q is below
1/2 for an eighth of the unit matrix in ac_fixed<16,-1>. -/
theorem C73_few_bits_wrong (pwl : Bool) : ∀ i < 2,
    (run2 ⟨16, -1, true, .TRN, .WRAP⟩ out40 pwl (1 / 8) 0 0 (1 / 8)).1 i i < 1 / 2 := by
  cases pwl <;> decide +kernel

end Props.QrdRound
