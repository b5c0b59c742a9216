import Verif.Props.DivInt
import Verif.Props.IntAlgos
import Verif.Props.DivFixed

/-! # C93: laws of the integer quotients and agreement of the divisions

What a user of an integer division relies on besides one quotient: the four implementations (`ac_div` of integers, signed and unsigned,
`ac_div_v2` and `ac_div` of fixed-point types without fraction bits) give the same quotient, dividing twice is dividing by the product,
common factors cancel, multiples of the divisor come out whole, and the order and the signs of the operands carry over. -/

namespace Props.IntDivLaws
open Ac Model.Div Props.DivInt Props.IntAlgos

/-- Words of an unsigned and of a signed type. -/
def U (W : ℕ) (x : ℤ) : Prop := 1 ≤ W ∧ 0 ≤ x ∧ x < 2 ^ W
def S (W : ℕ) (x : ℤ) : Prop := 1 ≤ W ∧ -2 ^ (W - 1) ≤ x ∧ x < 2 ^ (W - 1)

theorem quo {noSat : Bool} {NW DW QW RW : ℕ} {N D : ℤ} (hN : U NW N) (hD : U DW D) (h0 : D ≠ 0) (hQ : NW ≤ QW) :
    (divU noSat NW DW QW RW N D).quotient = N / D := by
  have hD0 : 0 < D := lt_of_le_of_ne hD.2.1 h0.symm
  rw [(C01_unsigned_div_any_width hN.1 hN.2.1 hN.2.2 hD0 hD.2.2).1]
  exact Int.emod_eq_of_lt (Int.ediv_nonneg hN.2.1 hD0.le) (lt_of_le_of_lt (Int.ediv_le_self _ hN.2.1)
    (lt_of_lt_of_le hN.2.2 (pow_le_pow_right₀ (by norm_num) hQ)))

theorem rem {noSat : Bool} {NW DW QW RW : ℕ} {N D : ℤ} (hN : U NW N) (hD : U DW D) (h0 : D ≠ 0) (hR : DW ≤ RW) :
    (divU noSat NW DW QW RW N D).remainder = N % D := by
  have hD0 : 0 < D := lt_of_le_of_ne hD.2.1 h0.symm
  rw [(C01_unsigned_div_any_width hN.1 hN.2.1 hN.2.2 hD0 hD.2.2).2.1]
  exact Int.emod_eq_of_lt (Int.emod_nonneg _ h0) (lt_trans (Int.emod_lt_of_pos _ hD0)
    (lt_of_lt_of_le hD.2.2 (pow_le_pow_right₀ (by norm_num) hR)))

/-- **C93**, `ac_div_v2` agrees with `ac_div`, unsigned, for every divisor its assertion accepts and outputs of every width. -/
theorem C93_v2_unsigned {noSat : Bool} {NW DW QW RW PW : ℕ} (hP1 : 1 ≤ PW) (hP : PW ≤ DW) (hW : DW < NW + PW) {N D : ℤ} (hN : U NW N)
    (hD : U DW D) (hD0 : 2 ^ (DW - PW) ≤ D) :
    Model.DivV2.divV2U NW DW QW RW PW N D =
      some ((divU noSat NW DW QW RW N D).quotient, (divU noSat NW DW QW RW N D).remainder) := by
  obtain ⟨a, b, -⟩ := C01_unsigned_div_any_width (noSat := noSat) (QW := QW) (RW := RW) hN.1 hN.2.1 hN.2.2
    (lt_of_lt_of_le (two_pow_pos' _) hD0) hD.2.2
  rw [C05_div_v2_any_width hP1 hP hW hN.2.1 hN.2.2 hD0 hD.2.2, a, b]

example : Model.DivV2.divV2U 8 4 3 2 2 200 7 = some ((divU true 8 4 3 2 200 7).quotient, (divU true 8 4 3 2 200 7).remainder) :=
  C93_v2_unsigned (by norm_num) (by norm_num) (by norm_num) ⟨by norm_num, by norm_num, by norm_num⟩ ⟨by norm_num, by norm_num, by norm_num⟩
    (by norm_num)

/-- **C93**, `ac_div_v2` agrees with `ac_div`, signed. -/
theorem C93_v2_signed {noSat : Bool} {NW DW QW RW PW : ℕ} (hP1 : 1 ≤ PW) (hP : PW ≤ DW) (hW : DW < NW + PW) (hR : DW ≤ RW) {N D : ℤ}
    (hN : S NW N) (hD : S DW D) (hD0 : 2 ^ (DW - PW) ≤ |D|) :
    Model.DivV2.divV2S NW DW QW RW PW N D =
      some ((divS noSat NW DW QW RW N D).quotient, (divS noSat NW DW QW RW N D).remainder) := by
  have h0 : D ≠ 0 := abs_pos.1 (lt_of_lt_of_le (two_pow_pos' _) hD0)
  obtain ⟨a, b, -⟩ := C02_signed_div_any_width (noSat := noSat) (QW := QW) (RW := RW) hN.1 hD.1 hN.2.1 hN.2.2 hD.2.1 hD.2.2 h0
  rw [C05_div_v2_signed hN.1 hP1 hP hW hR hN.2.1 hN.2.2 hD.2.1 hD.2.2 hD0, a, b]
  have h1 : |N.tmod D| < |D| := by
    rw [Int.abs_eq_natAbs, Int.natAbs_tmod, Int.abs_eq_natAbs]
    exact_mod_cast Nat.mod_lt _ (Int.natAbs_pos.2 h0)
  have h2 : |D| ≤ 2 ^ (DW - 1) := abs_le.2 ⟨hD.2.1, hD.2.2.le⟩
  have h3 : (2 : ℤ) ^ (DW - 1) ≤ 2 ^ (RW - 1) := pow_le_pow_right₀ (by norm_num) (by omega)
  obtain ⟨h4, h5⟩ := abs_lt.1 h1
  rw [wrapS_of_range (W := RW) (x := N.tmod D) (by have := hD.1; omega) (by linarith) (by linarith)]

example : Model.DivV2.divV2S 8 4 8 4 2 (-100) 7 =
    some ((divS false 8 4 8 4 (-100) 7).quotient, (divS false 8 4 8 4 (-100) 7).remainder) :=
  C93_v2_signed (by norm_num) (by norm_num) (by norm_num) (by norm_num) ⟨by norm_num, by norm_num, by norm_num⟩
    ⟨by norm_num, by norm_num, by norm_num⟩ (by norm_num)

theorem val_int (W : ℕ) (s : Bool) (q : QMode) (o : OMode) (r : ℤ) : (⟨W, W, s, q, o⟩ : Fmt).val r = r := by
  simp [Fmt.val, Fmt.F]

/-- **C93**, the fixed-point division agrees on whole numbers with the integer one, quotient and flag, unsigned. -/
theorem C93_fixed_unsigned {noSat noSat' : Bool} {NW DW QW RW : ℕ} (hQ : 1 ≤ QW) {N D : ℤ} (hN : U NW N) (hD : U DW D) (h0 : D ≠ 0)
    (old : ℚ) :
    (Model.DivFixed.divU noSat' ⟨NW, NW, false, .TRN, .WRAP⟩ ⟨DW, DW, false, .TRN, .WRAP⟩ ⟨QW, QW, false, .TRN, .WRAP⟩ N D old).1 =
      (divU noSat NW DW QW RW N D).quotient ∧
    ((Model.DivFixed.divU noSat' ⟨NW, NW, false, .TRN, .WRAP⟩ ⟨DW, DW, false, .TRN, .WRAP⟩ ⟨QW, QW, false, .TRN, .WRAP⟩ N D old).2 =
      (divU noSat NW DW QW RW N D).flag) := by
  have hD0 : 0 < D := lt_of_le_of_ne hD.2.1 h0.symm
  obtain ⟨a, -, b⟩ := C01_unsigned_div_any_width (noSat := noSat) (QW := QW) (RW := RW) hN.1 hN.2.1 hN.2.2 hD0 hD.2.2
  obtain ⟨c, d⟩ := Props.DivFixed.C04_unsigned_partial (noSat := noSat') (fn := ⟨NW, NW, false, .TRN, .WRAP⟩)
    (fd := ⟨DW, DW, false, .TRN, .WRAP⟩) (fq := ⟨QW, QW, false, .TRN, .WRAP⟩) hN.1 hD.1 hQ rfl
    (by have := hN.1; simp [Props.DivFixed.Reaches, Props.DivFixed.guard, Fmt.F]; omega) hN.2.1 hN.2.2 hD0 hD.2.2 old
  constructor
  · rw [c, a, val_int, val_int]
    unfold Fmt.cvt Fmt.cvtRaw
    rw [val_int]
    simp only [Fmt.F, sub_self, zpow_zero, mul_one, ovf, quant, wrap, Bool.false_eq_true, if_false]
    obtain ⟨n, rfl⟩ := Int.eq_ofNat_of_zero_le hD0.le
    rw [Int.cast_natCast, Rat.floor_intCast_div_natCast]
  · rw [Bool.eq_iff_iff, d, b, val_int, val_int]
    simp only [val_int]
    rw [← not_exists]
    refine not_congr ⟨fun ⟨m, hm⟩ => ⟨m, ?_⟩, fun ⟨m, hm⟩ => ⟨m, ?_⟩⟩
    · rw [div_eq_iff (by exact_mod_cast h0)] at hm
      have : N = m * D := by exact_mod_cast hm
      linarith
    · rw [hm, div_eq_iff (by exact_mod_cast h0)]
      push_cast; ring

example : (Model.DivFixed.divU false ⟨8, 8, false, .TRN, .WRAP⟩ ⟨4, 4, false, .TRN, .WRAP⟩ ⟨3, 3, false, .TRN, .WRAP⟩ 200 7 0).1 =
    (divU true 8 4 3 2 200 7).quotient :=
  (C93_fixed_unsigned (by norm_num) ⟨by norm_num, by norm_num, by norm_num⟩ ⟨by norm_num, by norm_num, by norm_num⟩ (by norm_num) 0).1

theorem floor_div {a b : ℤ} (hb : 0 < b) : ⌊(a : ℚ) / b⌋ = a / b := by
  obtain ⟨n, rfl⟩ := Int.eq_ofNat_of_zero_le hb.le
  rw [Int.cast_natCast, Rat.floor_intCast_div_natCast]

/-- Rounding toward zero is the division of C. -/
theorem quant_tdiv (N : ℤ) {D : ℤ} (h0 : D ≠ 0) : quant .TRN_ZERO ((N : ℚ) / D) = N.tdiv D := by
  have pos : ∀ {a b : ℤ}, 0 ≤ a → 0 < b → quant .TRN_ZERO ((a : ℚ) / b) = a.tdiv b := fun {a b} ha hb => by
    have : ¬ (a : ℚ) / b < 0 := not_lt.2 (div_nonneg (by exact_mod_cast ha) (by exact_mod_cast hb.le))
    simp only [quant, if_neg this]
    rw [floor_div hb, Int.tdiv_eq_ediv_of_nonneg ha]
  have neg : ∀ {a b : ℤ}, 0 ≤ a → 0 < b → quant .TRN_ZERO (-((a : ℚ) / b)) = -(a.tdiv b) := fun {a b} ha hb => by
    rcases eq_or_lt_of_le ha with rfl | h
    · simp [quant]
    · have : -((a : ℚ) / b) < 0 := neg_neg_of_pos (div_pos (by exact_mod_cast h) (by exact_mod_cast hb))
      simp only [quant, if_pos this]
      rw [Int.ceil_neg, floor_div hb, Int.tdiv_eq_ediv_of_nonneg ha]
  rcases le_or_gt 0 N with hN | hN <;> rcases lt_or_gt_of_ne h0 with hD | hD
  · have := neg hN (neg_pos.2 hD)
    rw [Int.tdiv_neg, neg_neg] at this
    rw [← this]; congr 1; push_cast; rw [div_neg, neg_neg]
  · exact pos hN hD
  · have := pos (neg_pos.2 hN).le (neg_pos.2 hD)
    rw [Int.tdiv_neg, Int.neg_tdiv, neg_neg] at this
    rw [← this]; congr 1; push_cast; rw [neg_div_neg_eq]
  · have := neg (neg_pos.2 hN).le hD
    rw [Int.neg_tdiv, neg_neg] at this
    rw [← this]; congr 1; push_cast; rw [neg_div, neg_neg]

/-- **C93**, the signed fixed-point division agrees on whole numbers with the integer one, quotient and flag, if it truncates toward
zero. -/
theorem C93_fixed_signed {noSat noSat' : Bool} {NW DW QW RW : ℕ} (hQ : 1 ≤ QW) {N D : ℤ} (hN : S NW N) (hD : S DW D)
    (h0 : D ≠ 0) (old : ℚ) :
    (Model.DivFixed.divS noSat' ⟨NW, NW, true, .TRN, .WRAP⟩ ⟨DW, DW, true, .TRN, .WRAP⟩ ⟨QW, QW, true, .TRN_ZERO, .WRAP⟩ N D old).1 =
      (divS noSat NW DW QW RW N D).quotient ∧
    ((Model.DivFixed.divS noSat' ⟨NW, NW, true, .TRN, .WRAP⟩ ⟨DW, DW, true, .TRN, .WRAP⟩ ⟨QW, QW, true, .TRN_ZERO, .WRAP⟩ N D old).2 = true ↔
      ¬ D ∣ N) := by
  obtain ⟨a, -, -⟩ := C02_signed_div_any_width (noSat := noSat) (QW := QW) (RW := RW) hN.1 hD.1 hN.2.1 hN.2.2 hD.2.1 hD.2.2 h0
  obtain ⟨c, d⟩ := Props.DivFixed.C04_signed_wrap_partial (noSat := noSat') (fn := ⟨NW, NW, true, .TRN, .WRAP⟩)
    (fd := ⟨DW, DW, true, .TRN, .WRAP⟩) (fq := ⟨QW, QW, true, .TRN_ZERO, .WRAP⟩) hN.1 hD.1 hQ rfl rfl
    (by have := hN.1; simp [Props.DivFixed.Reaches, Props.DivFixed.guard, Fmt.F]; omega) hN.2.1 hN.2.2 hD.2.1 hD.2.2 h0 old
  constructor
  · rw [c, a, val_int, val_int]
    unfold Fmt.cvt Fmt.cvtRaw
    rw [val_int]
    simp only [Fmt.F, sub_self, zpow_zero, mul_one, ovf]
    rw [quant_tdiv N h0]
  · rw [d, val_int, val_int]
    simp only [val_int]
    rw [← not_exists]
    refine not_congr ⟨fun ⟨m, hm⟩ => ⟨m, ?_⟩, fun ⟨m, hm⟩ => ⟨m, ?_⟩⟩
    · rw [div_eq_iff (by exact_mod_cast h0)] at hm
      have : N = m * D := by exact_mod_cast hm
      linarith
    · rw [hm, div_eq_iff (by exact_mod_cast h0)]
      push_cast; ring

example : (Model.DivFixed.divS false ⟨8, 8, true, .TRN, .WRAP⟩ ⟨4, 4, true, .TRN, .WRAP⟩ ⟨8, 8, true, .TRN_ZERO, .WRAP⟩ (-7) 2 0).1 =
    (divS false 8 4 8 4 (-7) 2).quotient :=
  (C93_fixed_signed (by norm_num) ⟨by norm_num, by norm_num, by norm_num⟩ ⟨by norm_num, by norm_num, by norm_num⟩
    (by norm_num) 0).1

/-- The signed fixed-point division with the default rounding mode does not agree with the integer one, which truncates toward zero:
`-7 / 2` is -4 and -3. -/
theorem C93_fixed_signed_wrong :
    (Model.DivFixed.divS false ⟨8, 8, true, .TRN, .WRAP⟩ ⟨4, 4, true, .TRN, .WRAP⟩ ⟨8, 8, true, .TRN, .WRAP⟩ (-7) 2 0).1 = -4 ∧
    (divS false 8 4 8 4 (-7) 2).quotient = -3 := by
  refine ⟨?_, ?_⟩ <;> decide +kernel

/-- **C93**, signed and unsigned division agree on operands that are not negative. -/
theorem C93_signed_unsigned {noSat noSat' : Bool} {NW DW QW RW NW' DW' QW' RW' : ℕ} {N D : ℤ} (hN : S NW N) (hD : S DW D) (hN' : U NW' N)
    (hD' : U DW' D) (h0 : D ≠ 0) (hQ : NW ≤ QW) (hR : DW ≤ RW) (hQ' : NW' ≤ QW') (hR' : DW' ≤ RW') :
    (divS noSat NW DW QW RW N D).quotient = (divU noSat' NW' DW' QW' RW' N D).quotient ∧
    (divS noSat NW DW QW RW N D).remainder = (divU noSat' NW' DW' QW' RW' N D).remainder := by
  have hD0 : 0 < D := lt_of_le_of_ne hD'.2.1 h0.symm
  obtain ⟨a, b, -⟩ := C02_signed_div_any_width (noSat := noSat) (QW := QW) (RW := RW) hN.1 hD.1 hN.2.1 hN.2.2 hD.2.1 hD.2.2 h0
  have hq := Int.ediv_nonneg hN'.2.1 hD0.le
  have hr := Int.emod_nonneg N h0
  have hp (k : ℕ) : (0 : ℤ) < 2 ^ k := by positivity
  rw [a, b, quo hN' hD' h0 hQ', rem hN' hD' h0 hR', Int.tdiv_eq_ediv_of_nonneg hN'.2.1, Int.tmod_eq_emod_of_nonneg hN'.2.1]
  constructor
  · refine wrapS_of_range (by have := hN.1; omega) (by linarith [hp (QW - 1)]) ?_
    exact lt_of_le_of_lt (Int.ediv_le_self _ hN'.2.1) (lt_of_lt_of_le hN.2.2 (pow_le_pow_right₀ (by norm_num) (by omega)))
  · refine wrapS_of_range (by have := hD.1; omega) (by linarith [hp (RW - 1)]) ?_
    exact lt_trans (Int.emod_lt_of_pos _ hD0) (lt_of_lt_of_le hD.2.2 (pow_le_pow_right₀ (by norm_num) (by omega)))

example : (divS false 8 4 8 4 100 7).quotient = (divU false 7 3 7 3 100 7).quotient :=
  (C93_signed_unsigned ⟨by norm_num, by norm_num, by norm_num⟩ ⟨by norm_num, by norm_num, by norm_num⟩ ⟨by norm_num, by norm_num, by norm_num⟩
    ⟨by norm_num, by norm_num, by norm_num⟩ (by norm_num) (by norm_num) (by norm_num) (by norm_num) (by norm_num)).1

/-- **C93**, signs: a change of the sign of the dividend changes the signs of quotient and remainder, a change of the sign of the divisor
that of the quotient only; the results are reduced to their types, of any width, as by an assignment. -/
theorem C93_signs {noSat : Bool} {NW DW QW RW : ℕ} {N D : ℤ} (hN : S NW N) (hN' : S NW (-N)) (hD : S DW D) (hD' : S DW (-D)) (h0 : D ≠ 0) :
    (divS noSat NW DW QW RW (-N) D).quotient = wrap QW true (-(divS noSat NW DW QW RW N D).quotient) ∧
    (divS noSat NW DW QW RW (-N) D).remainder = wrap RW true (-(divS noSat NW DW QW RW N D).remainder) ∧
    (divS noSat NW DW QW RW N (-D)).quotient = wrap QW true (-(divS noSat NW DW QW RW N D).quotient) ∧
    (divS noSat NW DW QW RW N (-D)).remainder = (divS noSat NW DW QW RW N D).remainder := by
  obtain ⟨a, b, -⟩ := C02_signed_div_any_width (noSat := noSat) (QW := QW) (RW := RW) hN.1 hD.1 hN.2.1 hN.2.2 hD.2.1 hD.2.2 h0
  obtain ⟨a1, b1, -⟩ := C02_signed_div_any_width (noSat := noSat) (QW := QW) (RW := RW) hN.1 hD.1 hN'.2.1 hN'.2.2 hD.2.1 hD.2.2 h0
  obtain ⟨a2, b2, -⟩ := C02_signed_div_any_width (noSat := noSat) (QW := QW) (RW := RW) hN.1 hD.1 hN.2.1 hN.2.2 hD'.2.1 hD'.2.2
    (neg_ne_zero.2 h0)
  rw [a, b, a1, b1, a2, b2, Int.neg_tdiv, Int.neg_tmod, Int.tdiv_neg, Int.tmod_neg]
  exact ⟨wrap_congr (wrap_modEq _ _ _).symm.neg, wrap_congr (wrap_modEq _ _ _).symm.neg, wrap_congr (wrap_modEq _ _ _).symm.neg, rfl⟩

example : (divS false 8 4 8 4 (-100) 7).quotient = wrap 8 true (-(divS false 8 4 8 4 100 7).quotient) :=
  (C93_signs (QW := 8) (RW := 4) (N := 100) (D := 7) ⟨by norm_num, by norm_num, by norm_num⟩ ⟨by norm_num, by norm_num, by norm_num⟩
    ⟨by norm_num, by norm_num, by norm_num⟩ ⟨by norm_num, by norm_num, by norm_num⟩ (by norm_num)).1

/-- **C93**, dividing twice is dividing once by the product. -/
theorem C93_twice {n1 n2 n3 : Bool} {NW AW BW CW QW RW RW' RW'' : ℕ} {N A B : ℤ} (hN : U NW N) (hA : U AW A) (hB : U BW B)
    (hC : U CW (A * B)) (hA0 : A ≠ 0) (hB0 : B ≠ 0) :
    (divU n2 NW BW QW RW' (divU n1 NW AW NW RW N A).quotient B).quotient = (divU n3 NW CW QW RW'' N (A * B)).quotient := by
  have pA : 0 < A := lt_of_le_of_ne hA.2.1 hA0.symm
  have pB : 0 < B := lt_of_le_of_ne hB.2.1 hB0.symm
  have q0 := Int.ediv_nonneg hN.2.1 pA.le
  rw [quo hN hA hA0 le_rfl, (C01_unsigned_div_any_width hN.1 q0 (lt_of_le_of_lt (Int.ediv_le_self _ hN.2.1) hN.2.2) pB hB.2.2).1,
    (C01_unsigned_div_any_width hN.1 hN.2.1 hN.2.2 (mul_pos pA pB) hC.2.2).1, Int.ediv_ediv_of_nonneg pA.le]

example : (divU false 8 3 8 3 (divU false 8 4 8 4 200 7).quotient 3).quotient = (divU false 8 5 8 5 200 (7 * 3)).quotient :=
  C93_twice ⟨by norm_num, by norm_num, by norm_num⟩ ⟨by norm_num, by norm_num, by norm_num⟩ ⟨by norm_num, by norm_num, by norm_num⟩
    ⟨by norm_num, by norm_num, by norm_num⟩ (by norm_num) (by norm_num)

/-- **C93**, a common factor cancels: the quotient is unchanged, the remainder is multiplied by it. -/
theorem C93_cancel {n1 n2 : Bool} {NW DW MW EW QW RW RW' : ℕ} {N D K : ℤ} (hN : U NW N) (hD : U DW D) (hNK : U MW (N * K)) (hDK : U EW (D * K))
    (h0 : D ≠ 0) (hK : 0 < K) (hR : DW ≤ RW) (hR' : EW ≤ RW') :
    (divU n2 MW EW QW RW' (N * K) (D * K)).quotient = (divU n1 NW DW QW RW N D).quotient ∧
    (divU n2 MW EW QW RW' (N * K) (D * K)).remainder = (divU n1 NW DW QW RW N D).remainder * K := by
  have pD : 0 < D := lt_of_le_of_ne hD.2.1 h0.symm
  have h0' : D * K ≠ 0 := (mul_pos pD hK).ne'
  rw [rem hNK hDK h0' hR', rem hN hD h0 hR, mul_comm N, mul_comm D, Int.mul_emod_mul_of_pos _ _ hK, mul_comm K (N % D), mul_comm K N, mul_comm K D]
  refine ⟨?_, rfl⟩
  rw [(C01_unsigned_div_any_width hNK.1 hNK.2.1 hNK.2.2 (mul_pos pD hK) hDK.2.2).1,
    (C01_unsigned_div_any_width hN.1 hN.2.1 hN.2.2 pD hD.2.2).1, Int.mul_ediv_mul_of_pos_left _ _ hK]

example : (divU false 10 6 8 6 (200 * 5) (7 * 5)).remainder = (divU false 8 4 8 4 200 7).remainder * 5 :=
  (C93_cancel (QW := 8) ⟨by norm_num, by norm_num, by norm_num⟩ ⟨by norm_num, by norm_num, by norm_num⟩ ⟨by norm_num, by norm_num, by norm_num⟩
    ⟨by norm_num, by norm_num, by norm_num⟩ (by norm_num) (by norm_num) (by norm_num) (by norm_num)).2

/-- **C93**, a multiple of the divisor in the dividend comes out whole and leaves the remainder as it is. -/
theorem C93_multiple {n1 n2 : Bool} {NW DW MW QW RW : ℕ} {N D K : ℤ} (hN : U NW N) (hD : U DW D) (hM : U MW (N + K * D)) (h0 : D ≠ 0)
    (hQ : max NW MW ≤ QW) :
    (divU n2 MW DW QW RW (N + K * D) D).quotient = (divU n1 NW DW QW RW N D).quotient + K ∧
    (divU n2 MW DW QW RW (N + K * D) D).remainder = (divU n1 NW DW QW RW N D).remainder := by
  have pD : 0 < D := lt_of_le_of_ne hD.2.1 h0.symm
  rw [quo hM hD h0 (by omega), quo hN hD h0 (by omega), Int.add_mul_ediv_right _ _ h0]
  refine ⟨rfl, ?_⟩
  rw [(C01_unsigned_div_any_width hM.1 hM.2.1 hM.2.2 pD hD.2.2).2.1, (C01_unsigned_div_any_width hN.1 hN.2.1 hN.2.2 pD hD.2.2).2.1,
    Int.add_mul_emod_self_right]

example : (divU false 8 4 8 4 (100 + 10 * 7) 7).quotient = (divU false 7 4 8 4 100 7).quotient + 10 :=
  (C93_multiple (RW := 4) ⟨by norm_num, by norm_num, by norm_num⟩ ⟨by norm_num, by norm_num, by norm_num⟩
    ⟨by norm_num, by norm_num, by norm_num⟩ (by norm_num) (by norm_num)).1

/-- **C93**, order: a larger dividend has no smaller quotient, a larger divisor no larger one. -/
theorem C93_order {n1 n2 : Bool} {NW DW NW' DW' QW RW RW' : ℕ} {N D N' D' : ℤ} (hN : U NW N) (hD : U DW D) (hN' : U NW' N') (hD' : U DW' D')
    (h0 : D' ≠ 0) (hQ : max NW NW' ≤ QW) (hNN : N ≤ N') (hDD : D' ≤ D) :
    (divU n1 NW DW QW RW N D).quotient ≤ (divU n2 NW' DW' QW RW' N' D').quotient := by
  have pD' : 0 < D' := lt_of_le_of_ne hD'.2.1 h0.symm
  have pD : 0 < D := by omega
  rw [quo hN hD pD.ne' (by omega), quo hN' hD' h0 (by omega)]
  refine le_trans (Int.ediv_le_ediv pD hNN) ?_
  rw [Int.le_ediv_iff_mul_le pD']
  exact le_trans (mul_le_mul_of_nonneg_left hDD (Int.ediv_nonneg hN'.2.1 pD.le)) (Int.ediv_mul_le _ pD.ne')

example : (divU false 8 4 8 4 200 7).quotient ≤ (divU false 9 3 9 3 300 5).quotient := by
  have := C93_order (n1 := false) (n2 := false) (QW := 9) (RW := 4) (RW' := 3) (N := 200) (D := 7) (N' := 300) (D' := 5) (NW := 8) (DW := 4)
    (NW' := 9) (DW' := 3) ⟨by norm_num, by norm_num, by norm_num⟩ ⟨by norm_num, by norm_num, by norm_num⟩
    ⟨by norm_num, by norm_num, by norm_num⟩ ⟨by norm_num, by norm_num, by norm_num⟩ (by norm_num) (by norm_num) (by norm_num) (by norm_num)
  rwa [quo (QW := 8) ⟨by norm_num, by norm_num, by norm_num⟩ ⟨by norm_num, by norm_num, by norm_num⟩ (by norm_num) le_rfl,
    ← quo (noSat := false) (QW := 9) (RW := 4) (NW := 8) (DW := 4) ⟨by norm_num, by norm_num, by norm_num⟩
      ⟨by norm_num, by norm_num, by norm_num⟩ (by norm_num) (by norm_num)]

end Props.IntDivLaws
