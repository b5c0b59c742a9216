import Verif.Proof.ComplexDiv

/-! # C59: the quotient of two complex numbers -/

namespace Props.ComplexDiv
open Ac Model.Complex Proof.Complex Proof.ComplexDiv

/-- The dividend type `fn` is no wider than the quotient type on either side of the binary point. -/
def NoWider (fn fq : Fmt) : Prop := fn.F ≤ fq.F ∧ fn.I + (if fn.S then 0 else 1) ≤ fq.I

/-- **C59**. The quotient of `a + bi` by `c + di` is, in each part, the exact quotient converted once to the quotient type,
and the flag says whether either part is inexact on its grid, whatever the contents of the uninitialised variables.  Missing:
dividend types that are wider than the quotient type on one side of the binary point; for them the property is false
(`C59_wide_dividend`, `C59_fine_dividend`), because the product with the conjugated divisor is stored in a type made from
that of the quotient. -/
theorem C59_quotient_partial {noSat : Bool} {fn fd fq : Fmt} (hn : 1 ≤ fn.W) (hdW : 1 ≤ fd.W) (hq : 1 ≤ fq.W)
    (hS : fq.S = true) (hw : NoWider fn fq) (hF : -(fq.W + fd.W : ℤ) ≤ fd.F) {a b c d : ℚ} (ha : fn.Rep a) (hb : fn.Rep b)
    (hc : fd.Rep c) (hd : fd.Rep d) (h0 : c ≠ 0 ∨ d ≠ 0) (junk junk' : ℚ) :
    (div noSat fd fq a b c d junk junk').1 = fq.cvt ((a * c + b * d) / (c ^ 2 + d ^ 2)) ∧
    (div noSat fd fq a b c d junk junk').2.1 = fq.cvt ((b * c - a * d) / (c ^ 2 + d ^ 2)) ∧
    ((div noSat fd fq a b c d junk junk').2.2 = true ↔ (∀ m : ℤ, (a * c + b * d) / (c ^ 2 + d ^ 2) ≠ fq.val m) ∨
      (∀ m : ℤ, (b * c - a * d) / (c ^ 2 + d ^ 2) ≠ fq.val m)) := by
  obtain ⟨h1, h2⟩ := prod_reps hn hdW hw.1 hw.2 hq ha hb hc hd
  obtain ⟨N, eN, N0, N1, rN⟩ := prod_cvt h1
  obtain ⟨M, eM, M0, M1, rM⟩ := prod_cvt h2
  obtain ⟨D, eD, D0, D1, Dz⟩ := den_rep hdW hc hd
  have rD := den_cvt hdW D0 D1
  have hDne : D ≠ 0 := fun h => by obtain ⟨x, y⟩ := Dz h; rcases h0 with h | h <;> contradiction
  have hp0 : (0 : ℤ) < 2 ^ ((denFmt fd).W - 1) := by positivity
  have key : ∀ (K : ℤ) (j : ℚ), -2 ^ ((prodFmt fd fq).W - 1) ≤ K → K < 2 ^ ((prodFmt fd fq).W - 1) →
      (Model.DivFixed.divS noSat (prodFmt fd fq) (denFmt fd) fq K D j).1 = fq.cvt ((prodFmt fd fq).val K / (denFmt fd).val D) ∧
      ((Model.DivFixed.divS noSat (prodFmt fd fq) (denFmt fd) fq K D j).2 = true ↔
        ∀ m : ℤ, (prodFmt fd fq).val K / (denFmt fd).val D ≠ fq.val m) := by
    intro K j K0 K1
    have hr : 1 ≤ (prodFmt fd fq).I + (denFmt fd).F + fq.F := by
      unfold prodFmt denFmt Fmt.F; unfold Fmt.F at hF; push_cast; omega
    by_cases hO : fq.O = .WRAP
    · exact Props.DivFixed.C04_signed_wrap_partial (by unfold prodFmt; simp) (by unfold denFmt; simp) hq hS hO
        (by unfold Props.DivFixed.Reaches Props.DivFixed.guard; split_ifs <;> omega) K0 K1 (by omega) D1 hDne j
    · exact Props.DivFixed.C04_signed_sat (by unfold prodFmt; simp) (by unfold denFmt; simp) hq hS hO hr K0 K1
        (by omega) D1 hDne j
  have hz : (!noSat && decide (c = 0) && decide (d = 0)) = false := by
    rcases h0 with h | h <;> simp [h]
  have e2 : c * c + d * d = (denFmt fd).val D := by rw [← eD]; ring
  unfold div
  simp only [hz, Bool.false_eq_true, if_false, e2, rD, rN, rM, Bool.or_eq_true]
  rw [(key N junk N0 N1).1, (key M junk' M0 M1).1, (key N junk N0 N1).2, (key M junk' M0 M1).2, eN, eM, eD]
  exact ⟨rfl, rfl, Iff.rfl⟩

example : div false ⟨8, 4, true, .TRN, .WRAP⟩ ⟨20, 6, true, .TRN, .SAT⟩ 3 4 1 2 0 0 = (9011 / 4096, -3277 / 8192, true) := by
  decide +kernel

example : (div false ⟨8, 4, true, .TRN, .WRAP⟩ ⟨20, 6, true, .TRN, .SAT⟩ 3 4 1 2 0 0).1 =
    (⟨20, 6, true, .TRN, .SAT⟩ : Fmt).cvt ((3 * 1 + 4 * 2 : ℚ) / (1 ^ 2 + 2 ^ 2)) :=
  (C59_quotient_partial (fn := ⟨8, 4, true, .TRN, .WRAP⟩) (by decide) (by decide) (by decide) rfl
    ⟨by decide, by decide⟩ (by decide) ⟨48, by decide, by decide, by norm_num [Fmt.val, Fmt.F]⟩
    ⟨64, by decide, by decide, by norm_num [Fmt.val, Fmt.F]⟩ ⟨16, by decide, by decide, by norm_num [Fmt.val, Fmt.F]⟩
    ⟨32, by decide, by decide, by norm_num [Fmt.val, Fmt.F]⟩ (by norm_num) 0 0).1

/-- Division by zero gives the largest value in both parts, whatever the dividend. -/
theorem C59_zero_divisor (fd fq : Fmt) (a b junk junk' : ℚ) :
    (div false fd fq a b 0 0 junk junk').1 = fq.maxVal ∧ (div false fd fq a b 0 0 junk junk').2.1 = fq.maxVal := by
  have h : (prodFmt fd fq).cvt (0 : ℚ) = 0 := Fmt.cvt_zero' (by unfold prodFmt; simp)
  unfold div
  simp [h]

example : div false ⟨8, 4, true, .TRN, .WRAP⟩ ⟨8, 4, true, .TRN, .SAT⟩ (-3) (-4) 0 0 0 0 = (127 / 16, 127 / 16, true) ∨
    div false ⟨8, 4, true, .TRN, .WRAP⟩ ⟨8, 4, true, .TRN, .SAT⟩ (-3) (-4) 0 0 0 0 = (127 / 16, 127 / 16, false) := by
  decide +kernel

/-- A dividend type with more integer bits than the quotient type: 16384 divided by itself gives zero, reported exact. -/
theorem C59_wide_dividend : ∃ fn fd fq : Fmt, fq.O = .SAT ∧ fn.F ≤ fq.F ∧ fn.Rep 16384 ∧ fd.Rep 16384 ∧ fq.Rep 1 ∧
    fn.Rep 0 ∧ fd.Rep 0 ∧ div false fd fq 16384 0 16384 0 0 0 = (0, 0, false) := by
  refine ⟨⟨16, 16, true, .TRN, .WRAP⟩, ⟨16, 16, true, .TRN, .WRAP⟩, ⟨8, 2, true, .TRN, .SAT⟩, rfl, by decide,
    ⟨16384, by decide, by decide, by norm_num [Fmt.val, Fmt.F]⟩, ⟨16384, by decide, by decide, by norm_num [Fmt.val, Fmt.F]⟩,
    ⟨64, by decide, by decide, by norm_num [Fmt.val, Fmt.F]⟩, ⟨0, by decide, by decide, by norm_num [Fmt.val, Fmt.F]⟩,
    ⟨0, by decide, by decide, by norm_num [Fmt.val, Fmt.F]⟩, ?_⟩
  decide +kernel

/-- A dividend type with more fraction bits than the quotient type: one half divided by 1/256 gives zero instead of 128,
reported exact. -/
theorem C59_fine_dividend : ∃ fn fd fq : Fmt, fq.O = .SAT ∧ fn.I ≤ fq.I ∧ fn.Rep (1 / 2) ∧ fd.Rep (1 / 256) ∧ fq.Rep 128 ∧
    fn.Rep 0 ∧ fd.Rep 0 ∧ div false fd fq (1 / 2) 0 (1 / 256) 0 0 0 = (0, 0, false) := by
  refine ⟨⟨16, 8, true, .TRN, .WRAP⟩, ⟨16, 8, true, .TRN, .WRAP⟩, ⟨16, 16, true, .TRN, .SAT⟩, rfl, by decide,
    ⟨128, by decide, by decide, by norm_num [Fmt.val, Fmt.F]⟩, ⟨1, by decide, by decide, by norm_num [Fmt.val, Fmt.F]⟩,
    ⟨128, by decide, by decide, by norm_num [Fmt.val, Fmt.F]⟩, ⟨0, by decide, by decide, by norm_num [Fmt.val, Fmt.F]⟩,
    ⟨0, by decide, by decide, by norm_num [Fmt.val, Fmt.F]⟩, ?_⟩
  decide +kernel

end Props.ComplexDiv
