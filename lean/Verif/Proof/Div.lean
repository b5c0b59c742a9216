import Verif.Model.Div
import Verif.Ac.Lemmas

/-! # Loop invariant of the non-restoring divider -/

namespace Model.Div
open Ac

/-- After `k` iterations: with `T` the first `k` bits of the dividend (zeros appended when `k > NW`),
`Q` holds `T / D` and `R` (corrected by `D` when negative) holds `T % D`. -/
structure Inv (NW DW QW : ℕ) (N0 D : ℤ) (k : ℕ) (s : St) : Prop where
  hN : s.N = (N0 * 2 ^ k) % 2 ^ NW
  hQ : s.Q = ((N0 * 2 ^ k / 2 ^ NW) / D) % 2 ^ QW
  hlo : -D ≤ s.R
  hhi : s.R < D
  hR : (if s.R < 0 then s.R + D else s.R) = (N0 * 2 ^ k / 2 ^ NW) % D

theorem top_bits_succ {NW : ℕ} (hNW : 1 ≤ NW) (N0 : ℤ) (k : ℕ) :
    N0 * 2 ^ (k + 1) / 2 ^ NW =
      2 * (N0 * 2 ^ k / 2 ^ NW) + ((N0 * 2 ^ k) % 2 ^ NW / 2 ^ (NW - 1)) % 2 := by
  have hp := two_pow_pos' NW
  have hp1 := two_pow_pos' (NW - 1)
  have h2 := two_pow_succ_pred hNW
  set x := N0 * 2 ^ k with hx
  have e : N0 * 2 ^ (k + 1) = 2 * x := by rw [hx]; ring
  rw [e]
  have h := Int.mul_ediv_add_emod x (2 ^ NW)
  set T := x / 2 ^ NW
  set n := x % 2 ^ NW with hn
  have hn0 : 0 ≤ n := Int.emod_nonneg _ (ne_of_gt hp)
  have hn1 : n < 2 ^ NW := Int.emod_lt_of_pos _ hp
  have hb : n / 2 ^ (NW - 1) < 2 := Int.ediv_lt_of_lt_mul hp1 (by linarith)
  have hb0 : 0 ≤ n / 2 ^ (NW - 1) := Int.ediv_nonneg hn0 hp1.le
  rw [Int.emod_eq_of_lt hb0 hb]
  have : 2 * x = 2 ^ NW * (2 * T) + 2 * n := by rw [← h]; ring
  rw [this, Int.add_comm, Int.add_mul_ediv_left _ _ (ne_of_gt hp), h2,
    Int.mul_ediv_mul_of_pos _ _ (by norm_num)]
  ring

theorem step_inv {NW DW QW : ℕ} (hNW : 1 ≤ NW) {N0 D : ℤ} (hD0 : 0 < D) (hD1 : D < 2 ^ DW)
    {k : ℕ} {s : St} (h : Inv NW DW QW N0 D k s) :
    Inv NW DW QW N0 D (k + 1) (step NW DW QW D s) := by
  obtain ⟨hN, hQ, hlo, hhi, hR⟩ := h
  have hw : (2 : ℤ) ^ (DW + 1 - 1) = 2 ^ DW := by simp
  have hT := top_bits_succ hNW N0 k
  set T := N0 * 2 ^ k / 2 ^ NW with hTdef
  set b := (N0 * 2 ^ k % 2 ^ NW / 2 ^ (NW - 1)) % 2 with hb
  have hb0 : 0 ≤ b := Int.emod_nonneg _ (by norm_num)
  have hb1 : b < 2 := Int.emod_lt_of_pos _ (by norm_num)
  set r := T % D with hr
  have hr0 : 0 ≤ r := Int.emod_nonneg _ (ne_of_gt hD0)
  have hr1 : r < D := Int.emod_lt_of_pos _ hD0
  -- the new partial remainder
  have hRnew : (step NW DW QW D s).R = 2 * r + b - D := by
    simp only [step]
    rw [hN, ← hb]
    have e1 : wrap (DW + 1) true D = D := wrapS_of_range (by omega) (by rw [hw]; linarith) (by rw [hw]; exact hD1)
    have e2 : wrap (DW + 1) true (-D) = -D := wrapS_of_range (by omega) (by rw [hw]; linarith) (by rw [hw]; linarith)
    rw [e1, e2, Int.add_assoc, wrap_add_wrap]
    have hval : 2 * s.R + (b + if s.R < 0 then D else -D) = 2 * r + b - D := by
      split_ifs at hR ⊢ <;> linarith
    rw [hval]
    exact wrapS_of_range (by omega) (by rw [hw]; linarith) (by rw [hw]; linarith)
  have hdiv := Int.mul_ediv_add_emod T D
  rw [← hr] at hdiv
  have hT' : N0 * 2 ^ (k + 1) / 2 ^ NW = (2 * r + b) + D * (2 * (T / D)) := by
    rw [hT]; linarith
  have hQR : (N0 * 2 ^ (k + 1) / 2 ^ NW) / D = 2 * (T / D) + (if 0 ≤ 2 * r + b - D then 1 else 0) ∧
      (N0 * 2 ^ (k + 1) / 2 ^ NW) % D = (if 0 ≤ 2 * r + b - D then 2 * r + b - D else 2 * r + b) := by
    rw [hT']
    by_cases hc : 0 ≤ 2 * r + b - D
    · rw [if_pos hc, if_pos hc]
      have e : (2 * r + b) + D * (2 * (T / D)) = (2 * r + b - D) + D * (2 * (T / D) + 1) := by ring
      rw [e, Int.add_mul_ediv_left _ _ (ne_of_gt hD0), Int.add_mul_emod_self_left,
        Int.ediv_eq_zero_of_lt hc (by linarith), Int.emod_eq_of_lt hc (by linarith)]
      constructor <;> ring
    · rw [if_neg hc, if_neg hc]
      have : 0 ≤ 2 * r + b := by linarith
      rw [Int.add_mul_ediv_left _ _ (ne_of_gt hD0), Int.add_mul_emod_self_left,
        Int.ediv_eq_zero_of_lt this (by linarith), Int.emod_eq_of_lt this (by linarith)]
      constructor <;> ring
  refine ⟨?_, ?_, ?_, ?_, ?_⟩
  · simp only [step]
    rw [hN, wrap_false, Int.mul_emod, Int.emod_emod_of_dvd _ (dvd_refl _), ← Int.mul_emod]
    congr 1; ring
  · rw [hQR.1]
    have : (step NW DW QW D s).Q = wrap QW false (2 * s.Q + (if (step NW DW QW D s).R ≥ 0 then 1 else 0)) := by
      show wrap QW false (wrap QW false (2 * s.Q) + _) = _
      rw [wrap_add_wrap]; rfl
    rw [this, hRnew, hQ, ← wrap_false QW (T / D), wrap_two_mul_wrap]
    rfl
  · rw [hRnew]; linarith
  · rw [hRnew]; linarith
  · rw [hRnew, hQR.2]
    split_ifs <;> omega

theorem loop_inv {NW DW QW : ℕ} (hNW : 1 ≤ NW) {N0 D : ℤ} (hD0 : 0 < D) (hD1 : D < 2 ^ DW) (n : ℕ) :
    ∀ {k : ℕ} {s : St}, Inv NW DW QW N0 D k s → Inv NW DW QW N0 D (k + n) (loop NW DW QW D n s) := by
  induction n with
  | zero => intro k s h; exact h
  | succ n ih =>
    intro k s h
    have := ih (step_inv hNW hD0 hD1 h)
    rw [show k + (n + 1) = k + 1 + n by ring]
    exact this

theorem init_inv {NW DW QW : ℕ} {N0 D : ℤ} (h0 : 0 ≤ N0) (h1 : N0 < 2 ^ NW) (hD0 : 0 < D) :
    Inv NW DW QW N0 D 0 { N := N0, R := 0, Q := 0 } := by
  have e : N0 * 2 ^ 0 / 2 ^ NW = 0 := by rw [pow_zero, mul_one]; exact Int.ediv_eq_zero_of_lt h0 h1
  refine ⟨?_, ?_, by simp; linarith, hD0, ?_⟩
  · simp [Int.emod_eq_of_lt h0 h1]
  · rw [e]; simp
  · rw [e]; simp

/-- Result of running the loop `n` times on a nonzero divisor. -/
theorem loop_spec {NW DW QW : ℕ} (hNW : 1 ≤ NW) {N0 D : ℤ} (h0 : 0 ≤ N0) (h1 : N0 < 2 ^ NW)
    (hD0 : 0 < D) (hD1 : D < 2 ^ DW) (n : ℕ) :
    Inv NW DW QW N0 D n (loop NW DW QW D n { N := N0, R := 0, Q := 0 }) := by
  have := loop_inv (QW := QW) hNW hD0 hD1 n (init_inv (DW := DW) (QW := QW) h0 h1 hD0)
  simpa using this

/-- Complete input/output behaviour of the unsigned divider on a nonzero divisor. -/
theorem divU_eq {noSat : Bool} {NW DW QW RW : ℕ} (hNW : 1 ≤ NW) {N D : ℤ} (h0 : 0 ≤ N) (h1 : N < 2 ^ NW)
    (hD0 : 0 < D) (hD1 : D < 2 ^ DW) :
    divU noSat NW DW QW RW N D =
      { quotient := (N / D) % 2 ^ QW, remainder := (N % D) % 2 ^ RW, flag := N % D ≠ 0 } := by
  obtain ⟨hN, hQ, hlo, hhi, hR⟩ := loop_spec (QW := QW) hNW h0 h1 hD0 hD1 NW
  have e : N * 2 ^ NW / 2 ^ NW = N := Int.mul_ediv_cancel _ (ne_of_gt (two_pow_pos' NW))
  rw [e] at hQ hR
  have hw : (2 : ℤ) ^ (DW + 1 - 1) = 2 ^ DW := by simp
  have hRR : (if (loop NW DW QW D NW { N := N, R := 0, Q := 0 }).R < 0 then
      wrap (DW + 1) true ((loop NW DW QW D NW { N := N, R := 0, Q := 0 }).R + D)
      else (loop NW DW QW D NW { N := N, R := 0, Q := 0 }).R) = N % D := by
    rw [← hR]
    split_ifs with hneg
    · exact wrapS_of_range (by omega) (by rw [hw]; linarith) (by rw [hw]; linarith)
    · rfl
  have hz : ¬ (D = 0) := by omega
  simp only [divU, hRR, hQ, hz, and_false, if_false, wrap_false, Int.emod_emod]

end Model.Div
