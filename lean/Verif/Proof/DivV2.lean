import Verif.Model.DivV2
import Verif.Ac.Lemmas

/-! # Loop invariant of the restoring divider -/

namespace Model.DivV2
open Ac

/-- After `k` iterations, `quot` is the quotient of the first bits of the dividend and the upper part of
`temp_numer` is the remainder. -/
structure Inv (qw : ℕ) (N0 D : ℤ) (k : ℕ) (s : St) : Prop where
  hT : s.temp = (N0 * 2 ^ k / 2 ^ qw) % D * 2 ^ qw + (N0 * 2 ^ k) % 2 ^ qw
  hQ : s.quot = (N0 * 2 ^ k / 2 ^ qw) / D

/-- The `rem` register agrees with the current remainder when it is positive; otherwise the remainder is the
upper part of `temp_numer`. -/
def RemOk (qw : ℕ) (s : St) : Prop := s.rem > 0 → s.rem = s.temp / 2 ^ qw

theorem split (qw : ℕ) (hi lo : ℤ) (h0 : 0 ≤ lo) (h1 : lo < 2 ^ qw) : (hi * 2 ^ qw + lo) / 2 ^ qw = hi := by
  rw [Int.add_comm, Int.add_mul_ediv_right _ _ (ne_of_gt (two_pow_pos' qw)), Int.ediv_eq_zero_of_lt h0 h1]; simp

theorem split_mod (qw : ℕ) (hi lo : ℤ) (h0 : 0 ≤ lo) (h1 : lo < 2 ^ qw) : (hi * 2 ^ qw + lo) % 2 ^ qw = lo := by
  rw [Int.add_comm, Int.add_mul_emod_self_right, Int.emod_eq_of_lt h0 h1]

theorem step_inv {nw qw DW : ℕ} (hqw : 1 ≤ qw) (hnw : nw = qw + DW) {N0 D : ℤ}
    (hD0 : 0 < D) (hD1 : D < 2 ^ DW) (hN0 : 0 ≤ N0) (hN1 : N0 < D * 2 ^ qw)
    {k : ℕ} (hk : k < qw) {s : St} (h : Inv qw N0 D k s) :
    Inv qw N0 D (k + 1) (step nw qw DW D s) ∧ RemOk qw (step nw qw DW D s) := by
  obtain ⟨hT, hQ⟩ := h
  have hpq := two_pow_pos' qw
  have hpd := two_pow_pos' DW
  have hpk := two_pow_pos' k
  have e2 := two_pow_succ_pred hqw
  set X := N0 * 2 ^ k with hX
  have hX0 : 0 ≤ X := mul_nonneg hN0 hpk.le
  have hXX : N0 * 2 ^ (k + 1) = 2 * X := by rw [hX]; ring
  set T := X / 2 ^ qw with hTd
  set r := T % D with hr
  set l := X % 2 ^ qw with hl
  have hXT : X = T * 2 ^ qw + l := by rw [hTd, hl, mul_comm]; exact (Int.mul_ediv_add_emod _ _).symm
  have hr0 : 0 ≤ r := Int.emod_nonneg _ (ne_of_gt hD0)
  have hr1 : r < D := Int.emod_lt_of_pos _ hD0
  have hl0 : 0 ≤ l := Int.emod_nonneg _ (ne_of_gt hpq)
  have hl1 : l < 2 ^ qw := Int.emod_lt_of_pos _ hpq
  have hT0 : 0 ≤ T := Int.ediv_nonneg hX0 hpq.le
  have hTD := Int.mul_ediv_add_emod T D
  rw [← hr] at hTD
  -- doubled low part
  obtain ⟨b, l', hb, hl'0, hl'1, hb0, hb1⟩ : ∃ b l', 2 * l = b * 2 ^ qw + l' ∧ 0 ≤ l' ∧ l' < 2 ^ qw ∧ 0 ≤ b ∧ b ≤ 1 := by
    refine ⟨2 * l / 2 ^ qw, 2 * l % 2 ^ qw, ?_, Int.emod_nonneg _ (ne_of_gt hpq), Int.emod_lt_of_pos _ hpq,
      Int.ediv_nonneg (by linarith) hpq.le, ?_⟩
    · rw [mul_comm _ ((2 : ℤ) ^ qw)]; exact (Int.mul_ediv_add_emod _ _).symm
    · have : 2 * l / 2 ^ qw < 2 := Int.ediv_lt_of_lt_mul hpq (by linarith)
      omega
  have enw : (2 : ℤ) ^ nw = 2 ^ DW * 2 ^ qw := by rw [hnw, pow_add]; ring
  have enw1 : (2 : ℤ) ^ (nw + 1) = 2 * (2 ^ DW * 2 ^ qw) := by rw [pow_succ, enw]; ring
  have hDW : (2 : ℤ) ^ DW ≤ 2 ^ nw := by rw [enw]; nlinarith
  -- the shifted register
  have hsh : wrap (nw + 1) false (2 * s.temp) = (2 * r + b) * 2 ^ qw + l' := by
    have : 2 * s.temp = (2 * r + b) * 2 ^ qw + l' := by rw [hT]; linarith
    rw [this]
    refine wrapU_of_lt (by positivity) ?_
    rw [enw1]
    have : (2 * r + b + 1) * 2 ^ qw ≤ 2 * 2 ^ DW * 2 ^ qw :=
      mul_le_mul_of_nonneg_right (by linarith [Int.add_one_le_iff.mpr hr1, Int.add_one_le_iff.mpr hD1]) hpq.le
    linarith
  have hrem : (step nw qw DW D s).rem = 2 * r + b - D := by
    simp only [step]
    rw [hsh, split _ _ _ hl'0 hl'1]
    have w1 : wrap (nw + 1) true (2 * r + b) = 2 * r + b := by
      refine wrapS_of_range (by omega) ?_ ?_
      · simp only [Nat.add_sub_cancel]; have := two_pow_pos' nw; linarith
      · simp only [Nat.add_sub_cancel]
        have : 2 * (2 : ℤ) ^ DW ≤ 2 ^ nw := by rw [enw, e2]; nlinarith [two_pow_pos' (qw - 1)]
        linarith [Int.add_one_le_iff.mpr hr1, Int.add_one_le_iff.mpr hD1]
    have w2 : wrap (nw + 1) true D = D := by
      refine wrapS_of_range (by omega) ?_ ?_
      · simp only [Nat.add_sub_cancel]; have := two_pow_pos' nw; linarith
      · simp only [Nat.add_sub_cancel]; linarith
    rw [w1, w2]
    refine wrapS_of_range (by omega) ?_ ?_ <;> simp only [Nat.add_sub_cancel] <;> linarith [Int.add_one_le_iff.mpr hr1]
  have hmask : nw + 1 - (DW + 1) = qw := by omega
  -- quotient bound
  have hTlt : ∀ j, j ≤ qw → N0 * 2 ^ j / 2 ^ qw < D * 2 ^ j := by
    intro j _
    apply Int.ediv_lt_of_lt_mul hpq
    have := two_pow_pos' j
    nlinarith
  have hquotlt : 2 * (T / D) + 1 < 2 ^ qw := by
    have h1 : T / D < 2 ^ k := Int.ediv_lt_of_lt_mul hD0 (by rw [mul_comm]; exact hTlt k hk.le)
    have h2 : (2 : ℤ) ^ (k + 1) ≤ 2 ^ qw := pow_le_pow_right₀ (by norm_num) (by omega)
    rw [pow_succ] at h2
    omega
  have hq0 : 0 ≤ T / D := Int.ediv_nonneg hT0 hD0.le
  -- target values
  have hT' : 2 * X / 2 ^ qw = 2 * T + b := by
    have : 2 * X = (2 * T + b) * 2 ^ qw + l' := by rw [hXT]; linarith
    rw [this, split _ _ _ hl'0 hl'1]
  have hl'' : 2 * X % 2 ^ qw = l' := by
    have : 2 * X = (2 * T + b) * 2 ^ qw + l' := by rw [hXT]; linarith
    rw [this, split_mod _ _ _ hl'0 hl'1]
  by_cases hc : 2 * r + b - D < 0
  · have hd : (2 * T + b) / D = 2 * (T / D) ∧ (2 * T + b) % D = 2 * r + b := by
      have : 2 * T + b = (2 * r + b) + D * (2 * (T / D)) := by linarith
      rw [this, Int.add_mul_ediv_left _ _ (ne_of_gt hD0), Int.add_mul_emod_self_left,
        Int.ediv_eq_zero_of_lt (by linarith) (by linarith), Int.emod_eq_of_lt (by linarith) (by linarith)]
      simp
    refine ⟨⟨?_, ?_⟩, ?_⟩
    · rw [hXX, hT', hl'', hd.2]
      have : (step nw qw DW D s).temp = if (step nw qw DW D s).rem < 0 then wrap (nw + 1) false (2 * s.temp) else _ := rfl
      rw [this, hrem, if_pos hc, hsh]
    · rw [hXX, hT', hd.1]
      have : (step nw qw DW D s).quot = wrap qw false (wrap qw false (2 * s.quot) + (if (step nw qw DW D s).rem < 0 then 0 else 1)) := rfl
      rw [this, hrem, if_pos hc, hQ, wrapU_of_lt (x := 2 * (T / D)) (by linarith) (by linarith), add_zero,
        wrapU_of_lt (by linarith) (by linarith)]
    · intro h; rw [hrem] at h; omega
  · have hd : (2 * T + b) / D = 2 * (T / D) + 1 ∧ (2 * T + b) % D = 2 * r + b - D := by
      have : 2 * T + b = (2 * r + b - D) + D * (2 * (T / D) + 1) := by linarith
      rw [this, Int.add_mul_ediv_left _ _ (ne_of_gt hD0), Int.add_mul_emod_self_left,
        Int.ediv_eq_zero_of_lt (by linarith) (by linarith), Int.emod_eq_of_lt (by linarith) (by linarith)]
      simp
    have htemp : (step nw qw DW D s).temp = (2 * r + b - D) * 2 ^ qw + l' := by
      have : (step nw qw DW D s).temp = if (step nw qw DW D s).rem < 0 then wrap (nw + 1) false (2 * s.temp)
        else wrap (nw + 1) false (wrap (nw + 1) false (wrap (nw + 1) false (step nw qw DW D s).rem * 2 ^ qw) +
          wrap (nw + 1) false (2 * s.temp) % 2 ^ (nw + 1 - (DW + 1))) := rfl
      rw [this, hrem, if_neg hc, hsh, hmask, split_mod _ _ _ hl'0 hl'1]
      have hlt : 2 * r + b - D < 2 ^ DW := by linarith [Int.add_one_le_iff.mpr hr1]
      have hmul : (2 * r + b - D + 1) * 2 ^ qw ≤ 2 ^ DW * 2 ^ qw := mul_le_mul_of_nonneg_right hlt hpq.le
      have hpp : 0 < (2 : ℤ) ^ DW * 2 ^ qw := by positivity
      have hnn : 0 ≤ (2 * r + b - D) * 2 ^ qw := mul_nonneg (by linarith) hpq.le
      rw [wrapU_of_lt (x := 2 * r + b - D) (by linarith) (by rw [enw1]; linarith),
        wrapU_of_lt (x := (2 * r + b - D) * 2 ^ qw) hnn (by rw [enw1]; linarith),
        wrapU_of_lt (by linarith) (by rw [enw1]; linarith)]
    refine ⟨⟨?_, ?_⟩, ?_⟩
    · rw [hXX, hT', hl'', hd.2, htemp]
    · rw [hXX, hT', hd.1]
      have : (step nw qw DW D s).quot = wrap qw false (wrap qw false (2 * s.quot) + (if (step nw qw DW D s).rem < 0 then 0 else 1)) := rfl
      rw [this, hrem, if_neg hc, hQ, wrapU_of_lt (x := 2 * (T / D)) (by linarith) (by linarith),
        wrapU_of_lt (by linarith) (by linarith)]
    · intro _; rw [hrem, htemp, split _ _ _ hl'0 hl'1]

theorem loop_inv {nw qw DW : ℕ} (hqw : 1 ≤ qw) (hnw : nw = qw + DW) {N0 D : ℤ}
    (hD0 : 0 < D) (hD1 : D < 2 ^ DW) (hN0 : 0 ≤ N0) (hN1 : N0 < D * 2 ^ qw) (n : ℕ) :
    ∀ {k : ℕ} {s : St}, k + n ≤ qw → Inv qw N0 D k s → RemOk qw s →
      Inv qw N0 D (k + n) (loop nw qw DW D n s) ∧ RemOk qw (loop nw qw DW D n s) := by
  induction n with
  | zero => intro k s _ h h'; exact ⟨h, h'⟩
  | succ n ih =>
    intro k s hk h h'
    have h1 := step_inv hqw hnw hD0 hD1 hN0 hN1 (by omega : k < qw) h
    have := ih (by omega) h1.1 h1.2
    rw [show k + (n + 1) = k + 1 + n by ring]
    exact this

theorem divV2U_eq {NW DW QW RW PW : ℕ} (hP1 : 1 ≤ PW) (hP : PW ≤ DW) (hW : DW < NW + PW) {N D : ℤ}
    (hN0 : 0 ≤ N) (hN1 : N < 2 ^ NW) (hD0 : 2 ^ (DW - PW) ≤ D) (hD1 : D < 2 ^ DW) :
    divV2U NW DW QW RW PW N D = some (N / D % 2 ^ QW, N % D % 2 ^ RW) := by
  have hp := two_pow_pos' (DW - PW)
  have hDp : 0 < D := by linarith
  set qw := NW + PW - DW with hqwd
  have hqw : 1 ≤ qw := by omega
  have hpq := two_pow_pos' qw
  have hN1' : N < D * 2 ^ qw := by
    have : (2 : ℤ) ^ NW = 2 ^ (DW - PW) * 2 ^ qw := by rw [← pow_add]; congr 1; omega
    nlinarith
  have hw0 : wrap (NW + PW + 1) false N = N :=
    wrapU_of_lt hN0 (lt_of_lt_of_le hN1 (pow_le_pow_right₀ (by norm_num) (by omega)))
  have hdiv0 : N / 2 ^ qw % D = N / 2 ^ qw :=
    Int.emod_eq_of_lt (Int.ediv_nonneg hN0 hpq.le) (Int.ediv_lt_of_lt_mul hpq hN1')
  have hi : Inv qw N D 0 { temp := wrap (NW + PW + 1) false N, quot := 0, rem := 0 } := by
    refine ⟨?_, ?_⟩
    · simp only [pow_zero, mul_one, hw0, hdiv0]
      rw [mul_comm]; exact (Int.mul_ediv_add_emod _ _).symm
    · simp only [pow_zero, mul_one]
      exact (Int.ediv_eq_zero_of_lt (Int.ediv_nonneg hN0 hpq.le) (Int.ediv_lt_of_lt_mul hpq hN1')).symm
  obtain ⟨⟨hT, hQ⟩, hR⟩ := loop_inv (nw := NW + PW) (DW := DW) hqw (by omega) hDp hD1 hN0 hN1' qw (by omega) hi
    (by intro h; simp at h)
  simp only [zero_add] at hT hQ hR
  have ec : N * 2 ^ qw / 2 ^ qw = N := Int.mul_ediv_cancel _ (ne_of_gt hpq)
  have em : N * 2 ^ qw % 2 ^ qw = 0 := Int.mul_emod_left _ _
  rw [ec, em] at hT
  rw [ec] at hQ
  have hr0 : 0 ≤ N % D := Int.emod_nonneg _ (ne_of_gt hDp)
  have hr1 : N % D < D := Int.emod_lt_of_pos _ hDp
  have htop : (loop (NW + PW) qw DW D qw { temp := wrap (NW + PW + 1) false N, quot := 0, rem := 0 }).temp / 2 ^ qw = N % D := by
    rw [hT, add_zero]; exact Int.mul_ediv_cancel _ (ne_of_gt hpq)
  have hle : (2 : ℤ) ^ DW ≤ 2 ^ (NW + PW + 1) := pow_le_pow_right₀ (by norm_num) (by omega)
  have hif : (if (loop (NW + PW) qw DW D qw { temp := wrap (NW + PW + 1) false N, quot := 0, rem := 0 }).rem > 0 then
      wrap (NW + PW + 1) false (loop (NW + PW) qw DW D qw { temp := wrap (NW + PW + 1) false N, quot := 0, rem := 0 }).rem
      else wrap (NW + PW + 1) false ((loop (NW + PW) qw DW D qw { temp := wrap (NW + PW + 1) false N, quot := 0, rem := 0 }).temp / 2 ^ qw)) = N % D := by
    split_ifs with h
    · rw [hR h, htop]; exact wrapU_of_lt hr0 (by linarith)
    · rw [htop]; exact wrapU_of_lt hr0 (by linarith)
  have hcond : ¬ (D = 0 ∨ D < 2 ^ (DW - PW)) := by
    rintro (h | h) <;> linarith
  simp only [divV2U, if_neg hcond, ← hqwd, hif, hQ]
  simp only [wrap_false]

end Model.DivV2
