import Verif.Proof.DivFixed

/-! # C04: fixed-point division is correctly rounded

`fn`, `fd`, `fq` are the formats of dividend, divisor and quotient; `fn.val N` is the value of the word `N`;
`fq.cvt v` is the assignment of the exact number `v` to a variable of format `fq`.  `guard q` is 1 for the rounding
modes that look at the bit below the last place and 0 for the two truncating ones. -/

namespace Props.DivFixed
open Ac

/-- One for the modes that round, zero for the modes that truncate. -/
def guard (q : QMode) : ℤ := if q = .TRN ∨ q = .TRN_ZERO then 0 else 1

/-- Some quotient bit can reach the output: the largest possible quotient is below `2^(NI+DF)`, and the least
significant bit that matters has weight `2^-(QF+guard)`. -/
def Reaches (fn fd fq : Fmt) : Prop := 1 ≤ fn.I + fd.F + fq.F + guard fq.Q

theorem reaches_iff (fn fd fq : Fmt) : Reaches fn fd fq ↔ ¬ Model.DivFixed.early fn fd fq := by
  unfold Reaches Model.DivFixed.early Model.DivFixed.ZI Model.DivFixed.QF Model.DivFixed.rbitU guard
  split_ifs <;> push_cast <;> omega

/-- **C04**, unsigned. The quotient is the exact one converted once, the flag says whether it is inexact on the grid of
the output type.  Missing: instantiations in which no quotient bit can reach the output; for them the property is false
(`C04_unsigned_stale`). -/
theorem C04_unsigned_partial {noSat : Bool} {fn fd fq : Fmt} (hn : 1 ≤ fn.W) (hd : 1 ≤ fd.W) (hq : 1 ≤ fq.W)
    (hS : fq.S = false) (hr : Reaches fn fd fq) {N D : ℤ} (hN0 : 0 ≤ N) (hN1 : N < 2 ^ fn.W) (hD0 : 0 < D)
    (hD1 : D < 2 ^ fd.W) (old : ℚ) :
    (Model.DivFixed.divU noSat fn fd fq N D old).1 = fq.cvt (fn.val N / fd.val D) ∧
    ((Model.DivFixed.divU noSat fn fd fq N D old).2 = true ↔ ∀ m : ℤ, fn.val N / fd.val D ≠ fq.val m) :=
  Proof.DivFixed.divU_eq hn hd hq hS ((reaches_iff _ _ _).mp hr) hN0 hN1 hD0 hD1 old

example : (Model.DivFixed.divU false ⟨8, 4, false, .TRN, .WRAP⟩ ⟨6, 3, false, .TRN, .WRAP⟩
    ⟨5, 3, false, .RND_CONV, .SAT⟩ 100 13 0).1 =
    (⟨5, 3, false, .RND_CONV, .SAT⟩ : Fmt).cvt
      ((⟨8, 4, false, .TRN, .WRAP⟩ : Fmt).val 100 / (⟨6, 3, false, .TRN, .WRAP⟩ : Fmt).val 13) :=
  (C04_unsigned_partial (by decide) (by decide) (by decide) rfl (by unfold Reaches; decide) (by decide) (by decide)
    (by decide) (by decide) 0).1

/-- In the remaining instantiations the variable passed as `quotient` keeps the value it had before the call, whatever
the operands, including a zero divisor. -/
theorem C04_unsigned_stale {noSat : Bool} {fn fd fq : Fmt} (hr : ¬ Reaches fn fd fq) (N D : ℤ) (old : ℚ) :
    (Model.DivFixed.divU noSat fn fd fq N D old).1 = old := by
  rw [reaches_iff, not_not] at hr
  unfold Model.DivFixed.divU
  rw [if_pos hr]

/-- Dividing 1/16 by 8 into an `ac_fixed<4,2,false>` that held 3 leaves 3; the right answer is 0. -/
theorem C04_unsigned_wrong :
    ∃ (fn fd fq : Fmt) (N D : ℤ) (old : ℚ), 0 ≤ N ∧ N < 2 ^ fn.W ∧ 0 < D ∧ D < 2 ^ fd.W ∧ fq.Rep old ∧
      (Model.DivFixed.divU false fn fd fq N D old).1 ≠ fq.cvt (fn.val N / fd.val D) := by
  refine ⟨⟨4, -3, false, .TRN, .WRAP⟩, ⟨4, 4, false, .TRN, .WRAP⟩, ⟨4, 2, false, .TRN, .WRAP⟩, 8, 8, 3, by decide,
    by decide, by decide, by decide, ⟨12, by decide, by decide, by norm_num [Fmt.val, Fmt.F]⟩, ?_⟩
  decide +kernel

/-- A zero divisor gives the largest value of the quotient type. -/
theorem C04_unsigned_zero_partial {fn fd fq : Fmt} (hr : Reaches fn fd fq) (N : ℤ) (old : ℚ) :
    (Model.DivFixed.divU false fn fd fq N 0 old).1 = fq.maxVal := by
  rw [reaches_iff] at hr
  unfold Model.DivFixed.divU
  rw [if_neg hr]
  simp

example : (Model.DivFixed.divU false ⟨8, 4, false, .TRN, .WRAP⟩ ⟨6, 3, false, .TRN, .WRAP⟩
    ⟨5, 3, false, .RND_CONV, .SAT⟩ 100 0 0).1 = 31 / 4 := by
  rw [C04_unsigned_zero_partial (by unfold Reaches; decide)]; decide +kernel

private theorem not_early_signed {fn fd fq : Fmt} (hz : 1 ≤ Model.DivFixed.sZW fn fd fq) (hr : Reaches fn fd fq) :
    ¬ Model.DivFixed.early ⟨fn.W, fn.I, false, .TRN, .WRAP⟩ ⟨fd.W, fd.I, false, .TRN, .WRAP⟩
      (Model.DivFixed.uqFmt fn fd fq) := by
  rw [← reaches_iff]
  unfold Reaches guard at *
  unfold Model.DivFixed.uqFmt
  unfold Model.DivFixed.sZW at *
  cases h : fq.Q <;> simp [h, Model.DivFixed.symm, Model.DivFixed.rbitS, Fmt.F] at * <;> omega

/-- **C04**, signed, saturating outputs (every overflow mode but `AC_WRAP`): every instantiation that compiles, i.e.
whose intermediate types have a positive width, and every operand. -/
theorem C04_signed_sat {noSat : Bool} {fn fd fq : Fmt} (hn : 1 ≤ fn.W) (hd : 1 ≤ fd.W) (hq : 1 ≤ fq.W)
    (hS : fq.S = true) (hO : fq.O ≠ .WRAP) (hcompiles : 1 ≤ fn.I + fd.F + fq.F) {N D : ℤ}
    (hN0 : -2 ^ (fn.W - 1) ≤ N) (hN1 : N < 2 ^ (fn.W - 1)) (hD0 : -2 ^ (fd.W - 1) ≤ D) (hD1 : D < 2 ^ (fd.W - 1))
    (hD : D ≠ 0) (junk : ℚ) :
    (Model.DivFixed.divS noSat fn fd fq N D junk).1 = fq.cvt (fn.val N / fd.val D) ∧
    ((Model.DivFixed.divS noSat fn fd fq N D junk).2 = true ↔ ∀ m : ℤ, fn.val N / fd.val D ≠ fq.val m) := by
  have hz : 1 ≤ Model.DivFixed.sZW fn fd fq := by
    unfold Model.DivFixed.sZW Model.DivFixed.sZI; rw [if_neg hO]; exact hcompiles
  refine Proof.DivFixed.divS_eq hn hd hq hS hz (not_early_signed hz ?_) hN0 hN1 hD0 hD1 hD junk
  unfold Reaches guard; split_ifs <;> omega

example : (Model.DivFixed.divS false ⟨8, 4, true, .TRN, .WRAP⟩ ⟨6, 3, true, .TRN, .WRAP⟩
    ⟨7, 3, true, .RND_MIN_INF, .SAT⟩ (-100) 13 0).1 =
    (⟨7, 3, true, .RND_MIN_INF, .SAT⟩ : Fmt).cvt
      ((⟨8, 4, true, .TRN, .WRAP⟩ : Fmt).val (-100) / (⟨6, 3, true, .TRN, .WRAP⟩ : Fmt).val 13) :=
  (C04_signed_sat (by decide) (by decide) (by decide) rfl (by decide) (by decide) (by decide) (by decide) (by decide)
    (by decide) (by decide) 0).1

/-- **C04**, signed, wrapping outputs.  Missing: instantiations in which no quotient bit can reach the output; for them
the property is false (`C04_signed_junk`). -/
theorem C04_signed_wrap_partial {noSat : Bool} {fn fd fq : Fmt} (hn : 1 ≤ fn.W) (hd : 1 ≤ fd.W) (hq : 1 ≤ fq.W)
    (hS : fq.S = true) (hO : fq.O = .WRAP) (hr : Reaches fn fd fq) {N D : ℤ}
    (hN0 : -2 ^ (fn.W - 1) ≤ N) (hN1 : N < 2 ^ (fn.W - 1)) (hD0 : -2 ^ (fd.W - 1) ≤ D) (hD1 : D < 2 ^ (fd.W - 1))
    (hD : D ≠ 0) (junk : ℚ) :
    (Model.DivFixed.divS noSat fn fd fq N D junk).1 = fq.cvt (fn.val N / fd.val D) ∧
    ((Model.DivFixed.divS noSat fn fd fq N D junk).2 = true ↔ ∀ m : ℤ, fn.val N / fd.val D ≠ fq.val m) := by
  have hz : 1 ≤ Model.DivFixed.sZW fn fd fq := by
    unfold Model.DivFixed.sZW Model.DivFixed.sZI Fmt.F; rw [if_pos hO]; omega
  exact Proof.DivFixed.divS_eq hn hd hq hS hz (not_early_signed hz hr) hN0 hN1 hD0 hD1 hD junk

example : (Model.DivFixed.divS false ⟨8, 4, true, .TRN, .WRAP⟩ ⟨6, 3, true, .TRN, .WRAP⟩
    ⟨7, 2, true, .RND_INF, .WRAP⟩ (-100) 13 0).1 =
    (⟨7, 2, true, .RND_INF, .WRAP⟩ : Fmt).cvt
      ((⟨8, 4, true, .TRN, .WRAP⟩ : Fmt).val (-100) / (⟨6, 3, true, .TRN, .WRAP⟩ : Fmt).val 13) :=
  (C04_signed_wrap_partial (by decide) (by decide) (by decide) rfl rfl (by unfold Reaches; decide) (by decide)
    (by decide) (by decide) (by decide) (by decide) 0).1

/-- For the wrapping signed instantiations left out, the result depends on the content of an uninitialized local
variable: two contents give two different quotients of the same operands. -/
theorem C04_signed_junk :
    ∃ (fn fd fq : Fmt) (N D : ℤ) (j j' : ℚ), -2 ^ (fn.W - 1) ≤ N ∧ N < 2 ^ (fn.W - 1) ∧ -2 ^ (fd.W - 1) ≤ D ∧
      D < 2 ^ (fd.W - 1) ∧ D ≠ 0 ∧ fq.Rep j ∧ fq.Rep j' ∧
      (Model.DivFixed.divS false fn fd fq N D j).1 ≠ (Model.DivFixed.divS false fn fd fq N D j').1 := by
  refine ⟨⟨4, -3, true, .TRN, .WRAP⟩, ⟨4, 4, true, .TRN, .WRAP⟩, ⟨4, 2, true, .TRN, .WRAP⟩, 4, 4, 0, 1, by decide,
    by decide, by decide, by decide, by decide, ⟨0, by decide, by decide, by norm_num [Fmt.val, Fmt.F]⟩,
    ⟨4, by decide, by decide, by norm_num [Fmt.val, Fmt.F]⟩, ?_⟩
  decide +kernel

/-- A zero divisor gives the smallest value for a negative dividend and the largest value otherwise, in every signed
instantiation. -/
theorem C04_signed_zero (fn fd fq : Fmt) (N : ℤ) (junk : ℚ) :
    (Model.DivFixed.divS false fn fd fq N 0 junk).1 = if N < 0 then fq.minVal else fq.maxVal := by
  unfold Model.DivFixed.divS
  simp

example : (Model.DivFixed.divS false ⟨8, 4, true, .TRN, .WRAP⟩ ⟨6, 3, true, .TRN, .WRAP⟩
    ⟨7, 2, true, .RND_INF, .WRAP⟩ (-100) 0 0).1 = -2 := by
  rw [C04_signed_zero]; decide +kernel

end Props.DivFixed
