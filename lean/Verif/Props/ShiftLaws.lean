import Verif.Props.Shift
import Verif.Ac.Arith

/-! # C91: laws of the bidirectional shifts

What a user of a shift relies on when calls are combined: left and right are opposites, the kind of the count does not matter,
a shift can be undone, shifts in a row add up, the order of the inputs is kept, and a long right shift leaves nothing. -/

namespace Props.ShiftLaws
open Ac Props.Shift

/-- `ac_shift_left` with an `int` count: the overload is chosen by the signedness of the input, which is that of the output. -/
def left (fx fo : Fmt) (X n : ℤ) : ℚ := if fx.S then Model.Shift.leftSS fx fo X n else Model.Shift.leftUS fx fo X n

/-- `ac_shift_right` with an `int` count. -/
def right (fx fo : Fmt) (X n : ℤ) : ℚ := if fx.S then Model.Shift.rightSS fx fo X n else Model.Shift.rightUS fx fo X n

theorem left_eq {fx fo : Fmt} (hx : 1 ≤ fx.W) (hW : 1 ≤ fo.W) (hS : fx.S = fo.S) {X : ℤ} (hX : Word fx X) (n : ℤ) :
    left fx fo X n = fo.cvt (fx.val X * 2 ^ n) := by
  unfold left
  cases h : fx.S
  · simpa using C13_left_unsigned_int hx hW h (hS ▸ h) hX n
  · simpa using C13_left_signed_int hx hW h (hS ▸ h) hX n

theorem right_eq {fx fo : Fmt} (hx : 1 ≤ fx.W) (hW : 1 ≤ fo.W) (hS : fx.S = fo.S) {X : ℤ} (hX : Word fx X) (n : ℤ) :
    right fx fo X n = fo.cvt (fx.val X * 2 ^ (-n)) := by
  unfold right
  cases h : fx.S
  · simpa using C13_right_unsigned_int hx hW h (hS ▸ h) hX n
  · simpa using C13_right_signed_int hx hW h (hS ▸ h) hX n

theorem val_raw_cvt {f : Fmt} {v : ℚ} : f.val (f.raw (f.cvt v)) = f.cvt v := by
  unfold Fmt.cvt
  rw [Fmt.raw_val]

theorem word_cvt {f : Fmt} (hW : 1 ≤ f.W) (v : ℚ) : Word f (f.raw (f.cvt v)) := by
  unfold Fmt.cvt
  rw [Fmt.raw_val]
  exact ovf_range hW _ _

/-- **C91**, opposites: shifting left by `n` is shifting right by `-n`, in all rounding and overflow modes. -/
theorem C91_opposite {fx fo : Fmt} (hx : 1 ≤ fx.W) (hW : 1 ≤ fo.W) (hS : fx.S = fo.S) {X : ℤ} (hX : Word fx X) (n : ℤ) :
    left fx fo X n = right fx fo X (-n) := by
  rw [left_eq hx hW hS hX, right_eq hx hW hS hX, neg_neg]

example : left ⟨8, 4, true, .TRN, .WRAP⟩ ⟨6, 5, true, .RND_CONV, .WRAP⟩ (-77) 2 = 13 ∧
    right ⟨8, 4, true, .TRN, .WRAP⟩ ⟨6, 5, true, .RND_CONV, .WRAP⟩ (-77) (-2) = 13 := by
  decide +kernel

/-- **C91**, the kind of the count, right shifts: an unsigned count gives what the same signed count gives. -/
theorem C91_count_right {fx fo : Fmt} (hx : 1 ≤ fx.W) (hW : 1 ≤ fo.W) (hS : fx.S = fo.S) {X : ℤ} (hX : Word fx X) (n : ℕ) :
    (fx.S = false → Model.Shift.rightUU fx fo X n = right fx fo X n) ∧
    (fx.S = true → Model.Shift.rightSU fx fo X n = right fx fo X n) := by
  refine ⟨fun h => ?_, fun h => ?_⟩
  · rw [C13_right_unsigned hx h (hS ▸ h) hX, right_eq hx hW hS hX]
  · rw [C13_right_signed hx h (hS ▸ h) hX, right_eq hx hW hS hX]

example : Model.Shift.rightSU ⟨8, 4, true, .TRN, .WRAP⟩ ⟨6, 3, true, .RND_INF, .SAT⟩ (-77) 1 = -19 / 8 ∧
    right ⟨8, 4, true, .TRN, .WRAP⟩ ⟨6, 3, true, .RND_INF, .SAT⟩ (-77) 1 = -19 / 8 := by decide +kernel

/-- **C91**, the kind of the count, left shifts.  What is missing: signed wrapping outputs with a rounding mode that looks at the
sign, where the kind matters (`C91_count_left_wrong`). -/
theorem C91_count_left_partial {fx fo : Fmt} (hx : 1 ≤ fx.W) (hW : 1 ≤ fo.W) (hS : fx.S = fo.S) {X : ℤ} (hX : Word fx X) (n : ℕ) :
    (fx.S = false → Model.Shift.leftUU fx fo X n = left fx fo X n) ∧
    (fx.S = true → fo.O ≠ .WRAP ∨ fo.Q ∉ [QMode.TRN_ZERO, .RND_ZERO, .RND_INF] →
      Model.Shift.leftSU fx fo X n = left fx fo X n) := by
  refine ⟨fun h => ?_, fun h hm => ?_⟩
  · rw [C13_left_unsigned hx hW h hX, left_eq hx hW hS hX]
  · rw [C13_left_signed_partial hx hW h hm hX, left_eq hx hW hS hX]

example : Model.Shift.leftSU ⟨8, 4, true, .TRN, .WRAP⟩ ⟨6, 6, true, .RND_INF, .SAT⟩ (-77) 1 = -10 ∧
    left ⟨8, 4, true, .TRN, .WRAP⟩ ⟨6, 6, true, .RND_INF, .SAT⟩ (-77) 1 = -10 := by decide +kernel

/-- **C91 is false** for left shifts into a signed wrapping output that truncates toward zero: 1.25 shifted left by 1 is -1 with
an unsigned count and -2 with a signed one. -/
theorem C91_count_left_wrong :
    Model.Shift.leftSU ⟨4, 2, true, .TRN, .WRAP⟩ ⟨2, 2, true, .TRN_ZERO, .WRAP⟩ 5 1 = -1 ∧
    left ⟨4, 2, true, .TRN, .WRAP⟩ ⟨2, 2, true, .TRN_ZERO, .WRAP⟩ 5 1 = -2 := by decide +kernel

/-- **C91**, shifts in a row: after a shift that its output type holds exactly, a second shift gives what one shift by the sum
gives, for counts of either sign. -/
theorem C91_twice {fx fm fo : Fmt} (hx : 1 ≤ fx.W) (hm : 1 ≤ fm.W) (hW : 1 ≤ fo.W) (hS : fx.S = fm.S) (hS' : fm.S = fo.S)
    (hO : fm.O ≠ .SAT_SYM) {X : ℤ} (hX : Word fx X) {a : ℤ} (hr : fm.Rep (fx.val X * 2 ^ a)) (b : ℤ) :
    left fm fo (fm.raw (left fx fm X a)) b = left fx fo X (a + b) := by
  rw [left_eq hx hm hS hX, left_eq hm hW hS' (word_cvt hm _), val_raw_cvt, Fmt.cvt_rep hm hO hr,
    left_eq hx hW (hS.trans hS') hX, mul_assoc, Fmt.z_add]

example : (⟨9, 6, true, .TRN, .WRAP⟩ : Fmt).Rep ((⟨8, 4, true, .TRN, .WRAP⟩ : Fmt).val (-77) * 2 ^ (2 : ℤ)) ∧
    left ⟨9, 6, true, .TRN, .WRAP⟩ ⟨5, 3, true, .RND, .SAT⟩ (-154) (-4) = -5 / 4 ∧
    left ⟨8, 4, true, .TRN, .WRAP⟩ ⟨5, 3, true, .RND, .SAT⟩ (-77) (2 + -4) = -5 / 4 := by
  refine ⟨⟨-154, by decide, by decide, ?_⟩, by decide +kernel, by decide +kernel⟩
  unfold Fmt.val Fmt.F; norm_num

/-- **C91**, undoing a shift: after a left shift that its output type holds exactly, the right shift by the same count restores
the input. -/
theorem C91_undo {fx fm : Fmt} (hx : 1 ≤ fx.W) (hm : 1 ≤ fm.W) (hS : fx.S = fm.S) (hO : fm.O ≠ .SAT_SYM)
    (hO' : fx.O ≠ .SAT_SYM) {X : ℤ} (hX : Word fx X) {n : ℤ} (hr : fm.Rep (fx.val X * 2 ^ n)) :
    right fm fx (fm.raw (left fx fm X n)) n = fx.val X := by
  rw [left_eq hx hm hS hX, right_eq hm hx hS.symm (word_cvt hm _), val_raw_cvt, Fmt.cvt_rep hm hO hr, mul_assoc, Fmt.z_add,
    add_neg_cancel, zpow_zero, mul_one]
  exact Fmt.cvt_rep hx hO' ⟨X, hX.1, hX.2, rfl⟩

example : left ⟨8, 4, true, .TRN, .WRAP⟩ ⟨9, 6, true, .TRN, .WRAP⟩ (-77) 2 = -77 / 4 ∧
    right ⟨9, 6, true, .TRN, .WRAP⟩ ⟨8, 4, true, .TRN, .WRAP⟩ (-154) 2 = -77 / 16 := by decide +kernel

/-- **C91**, shifts in a row that drop digits: with truncation in both outputs the digits dropped by the first shift do not
matter, provided the first output holds the integer part and has the fraction digits that the second shift can bring into the
result. -/
theorem C91_twice_truncated {fx fm fo : Fmt} (hx : 1 ≤ fx.W) (hm : 1 ≤ fm.W) (hW : 1 ≤ fo.W) (hS : fx.S = fm.S) (hS' : fm.S = fo.S)
    (hQ : fm.Q = .TRN) (hQ' : fo.Q = .TRN) {X : ℤ} (hX : Word fx X) {a b : ℤ} (hF : fo.F ≤ fm.F + b)
    (h0 : (loRaw fm.W fm.S fm.O : ℚ) ≤ fx.val X * 2 ^ (-a) * 2 ^ fm.F) (h1 : fx.val X * 2 ^ (-a) * 2 ^ fm.F < maxRaw fm.W fm.S + 1) :
    right fm fo (fm.raw (right fx fm X a)) b = right fx fo X (a + b) := by
  rw [right_eq hx hm hS hX, right_eq hm hW hS' (word_cvt hm _), val_raw_cvt, right_eq hx hW (hS.trans hS') hX]
  set v := fx.val X * 2 ^ (-a) with hv
  have e : fx.val X * 2 ^ (-(a + b)) = v * 2 ^ (-b) := by
    rw [hv, mul_assoc, Fmt.z_add]; congr 2; ring
  rw [e]
  have hc : fm.cvt v = (⌊v * 2 ^ fm.F⌋ : ℚ) * 2 ^ (-fm.F) := by
    unfold Fmt.cvt Fmt.cvtRaw Fmt.val
    rw [hQ]
    have q : quant .TRN (v * 2 ^ fm.F) = ⌊v * 2 ^ fm.F⌋ := rfl
    rw [q, ovf_of_range hm (Int.le_floor.2 h0)]
    have := Int.floor_lt.2 (show v * 2 ^ fm.F < ((maxRaw fm.W fm.S + 1 : ℤ) : ℚ) by push_cast; exact h1)
    omega
  rw [hc]
  unfold Fmt.cvt Fmt.cvtRaw
  rw [hQ']
  have q : ∀ x : ℚ, quant .TRN x = ⌊x⌋ := fun _ => rfl
  rw [q, q]
  congr 2
  obtain ⟨k, hk⟩ := Int.eq_ofNat_of_zero_le (show 0 ≤ fm.F + b - fo.F by omega)
  have hk' : (2 : ℚ) ^ (fo.F - b) = 2 ^ fm.F / (2 ^ k : ℕ) := by
    rw [show fo.F - b = fm.F + -(k : ℤ) by omega, ← Fmt.z_add, zpow_neg]
    push_cast
    rw [zpow_natCast]; rfl
  have e1 : (⌊v * 2 ^ fm.F⌋ : ℚ) * 2 ^ (-fm.F) * 2 ^ (-b) * 2 ^ fo.F = (⌊v * 2 ^ fm.F⌋ : ℚ) / (2 ^ k : ℕ) := by
    rw [mul_assoc, Fmt.z_add, show -b + fo.F = fo.F - b by ring, hk', mul_assoc, mul_div_assoc', Fmt.z_add, neg_add_cancel,
      zpow_zero, mul_one_div]
  have e2 : v * 2 ^ (-b) * 2 ^ fo.F = v * 2 ^ fm.F / (2 ^ k : ℕ) := by
    rw [mul_assoc, Fmt.z_add, show -b + fo.F = fo.F - b by ring, hk', mul_div_assoc]
  rw [e1, e2, Int.floor_div_natCast, Int.floor_div_natCast, Int.floor_intCast]

example : right ⟨8, 4, true, .TRN, .WRAP⟩ ⟨7, 4, true, .TRN, .WRAP⟩ (-77) 1 = -5 / 2 ∧
    right ⟨7, 4, true, .TRN, .WRAP⟩ ⟨5, 3, true, .TRN, .WRAP⟩ (-20) 1 = -5 / 4 ∧
    right ⟨8, 4, true, .TRN, .WRAP⟩ ⟨5, 3, true, .TRN, .WRAP⟩ (-77) (1 + 1) = -5 / 4 := by decide +kernel

example : (loRaw 7 true .WRAP : ℚ) ≤ (⟨8, 4, true, .TRN, .WRAP⟩ : Fmt).val (-77) * 2 ^ (-1 : ℤ) * 2 ^ (3 : ℤ) ∧
    (⟨8, 4, true, .TRN, .WRAP⟩ : Fmt).val (-77) * 2 ^ (-1 : ℤ) * 2 ^ (3 : ℤ) < maxRaw 7 true + 1 ∧
    (⟨7, 4, true, .TRN, .WRAP⟩ : Fmt).F = 3 ∧ (⟨5, 3, true, .TRN, .WRAP⟩ : Fmt).F ≤ (⟨7, 4, true, .TRN, .WRAP⟩ : Fmt).F + 1 := by
  refine ⟨?_, ?_, ?_, ?_⟩
  · rw [show loRaw 7 true .WRAP = -64 by decide]; norm_num [Fmt.val, Fmt.F]
  all_goals norm_num [maxRaw, Fmt.val, Fmt.F]

/-- **C91 is false** for shifts in a row that round to nearest (`AC_RND`): 1.75 shifted right by one place into a type with one
fraction digit is 1, which shifted right by one place into a type with none is 1; shifted by two places at once it is 0. -/
theorem C91_twice_rounded_wrong :
    right ⟨4, 3, false, .RND, .WRAP⟩ ⟨2, 2, false, .RND, .WRAP⟩
      ((⟨4, 3, false, .RND, .WRAP⟩ : Fmt).raw (right ⟨6, 3, false, .TRN, .WRAP⟩ ⟨4, 3, false, .RND, .WRAP⟩ 14 1)) 1 = 1 ∧
    right ⟨6, 3, false, .TRN, .WRAP⟩ ⟨2, 2, false, .RND, .WRAP⟩ 14 (1 + 1) = 0 := by
  decide +kernel

/-- **C91**, order: a larger input gives no smaller result, in outputs that saturate, for counts of either sign. -/
theorem C91_order {fx fo : Fmt} (hx : 1 ≤ fx.W) (hW : 1 ≤ fo.W) (hS : fx.S = fo.S) (hO : fo.O = .SAT ∨ fo.O = .SAT_SYM)
    {X Y : ℤ} (hX : Word fx X) (hY : Word fx Y) (h : X ≤ Y) (n : ℤ) :
    left fx fo X n ≤ left fx fo Y n ∧ right fx fo X n ≤ right fx fo Y n := by
  rw [left_eq hx hW hS hX, left_eq hx hW hS hY, right_eq hx hW hS hX, right_eq hx hW hS hY]
  exact ⟨Fmt.cvt_mono hO (mul_le_mul_of_nonneg_right (Fmt.val_le.2 h) (Fmt.z_pos _).le),
    Fmt.cvt_mono hO (mul_le_mul_of_nonneg_right (Fmt.val_le.2 h) (Fmt.z_pos _).le)⟩

example : left ⟨8, 4, true, .TRN, .WRAP⟩ ⟨6, 5, true, .RND_CONV, .SAT⟩ (-77) 1 = -19 / 2 ∧
    left ⟨8, 4, true, .TRN, .WRAP⟩ ⟨6, 5, true, .RND_CONV, .SAT⟩ 77 1 = 19 / 2 := by decide +kernel

/-- **C91 is false** in outputs that wrap: 4 shifted left by one is less than 3 shifted left by one in `ac_fixed<3,3,false>`. -/
theorem C91_order_wrap_wrong :
    left ⟨3, 3, false, .TRN, .WRAP⟩ ⟨3, 3, false, .TRN, .WRAP⟩ 4 1 < left ⟨3, 3, false, .TRN, .WRAP⟩ ⟨3, 3, false, .TRN, .WRAP⟩ 3 1 := by
  decide +kernel

/-- **C91**, no shift: a count of zero, in either direction, is the assignment of the input to the output. -/
theorem C91_none {fx fo : Fmt} (hx : 1 ≤ fx.W) (hW : 1 ≤ fo.W) (hS : fx.S = fo.S) {X : ℤ} (hX : Word fx X) :
    left fx fo X 0 = fo.cvt (fx.val X) ∧ right fx fo X 0 = fo.cvt (fx.val X) := by
  rw [left_eq hx hW hS hX, right_eq hx hW hS hX, neg_zero, zpow_zero, mul_one]
  exact ⟨rfl, rfl⟩

example : left ⟨8, 4, true, .TRN, .WRAP⟩ ⟨6, 5, true, .RND_CONV, .SAT⟩ (-77) 0 = -5 := by decide +kernel

/-- **C91**, a long right shift: once the count reaches the integer digits of the input plus the fraction digits of the output,
a truncating output gets zero from an input that is not negative, and its smallest negative value from a negative one. -/
theorem C91_gone {fx fo : Fmt} (hx : 1 ≤ fx.W) (hW : 1 ≤ fo.W) (hS : fx.S = fo.S) (hQ : fo.Q = .TRN) (hw : fo.S = true → 2 ≤ fo.W)
    {X : ℤ} (hX : Word fx X) {n : ℤ} (hn : fx.I + fo.F ≤ n) :
    right fx fo X n = if 0 ≤ X then 0 else fo.val (-1) := by
  rw [right_eq hx hW hS hX]
  have e : fx.val X * 2 ^ (-n) * 2 ^ fo.F = X * 2 ^ (-(fx.W : ℤ) + (fx.I + fo.F - n)) := by
    unfold Fmt.val
    rw [mul_assoc, mul_assoc, Fmt.z_add, Fmt.z_add]
    congr 2
    unfold Fmt.F; ring
  have hp := Fmt.z_pos (-(fx.W : ℤ) + (fx.I + fo.F - n))
  have hle : (2 : ℚ) ^ (-(fx.W : ℤ) + (fx.I + fo.F - n)) * 2 ^ fx.W ≤ 1 := by
    rw [← zpow_natCast, Fmt.z_add]
    calc (2 : ℚ) ^ (-(fx.W : ℤ) + (fx.I + fo.F - n) + fx.W) ≤ 2 ^ (0 : ℤ) := Fmt.z_le (by omega)
      _ = 1 := zpow_zero _
  have hb : -2 ^ fx.W ≤ X ∧ X < 2 ^ fx.W := by
    have h2 := two_pow_succ_pred hx
    have h3 := two_pow_pos' (fx.W - 1)
    obtain ⟨l, u⟩ := hX
    cases h : fx.S <;> simp only [h, minRaw, maxRaw, if_true, if_false, Bool.false_eq_true] at l u <;> constructor <;> linarith
  obtain ⟨b0, b1⟩ := hb
  have b0' : -(2 : ℚ) ^ fx.W ≤ X := by have := (Int.cast_le (R := ℚ)).2 b0; push_cast at this; linarith
  have b1' : (X : ℚ) < 2 ^ fx.W := by exact_mod_cast b1
  unfold Fmt.cvt Fmt.cvtRaw
  rw [hQ, e]
  have q : ∀ x : ℚ, quant .TRN x = ⌊x⌋ := fun _ => rfl
  rw [q]
  generalize (2 : ℚ) ^ (-(fx.W : ℤ) + (fx.I + fo.F - n)) = z at *
  split_ifs with h
  · have hX0 : (0 : ℚ) ≤ X := by exact_mod_cast h
    have : ⌊(X : ℚ) * z⌋ = 0 := by
      rw [Int.floor_eq_zero_iff]
      refine ⟨mul_nonneg hX0 hp.le, ?_⟩
      have := mul_lt_mul_of_pos_right b1' hp
      linarith
    rw [this, ovf_of_range hW (loRaw_nonpos _ _ _) (maxRaw_nonneg _ _)]
    simp [Fmt.val]
  · have hX0 : (X : ℚ) < 0 := by exact_mod_cast not_le.1 h
    have hs : fo.S = true := by
      rw [← hS]
      by_contra hc
      have := hX.1
      simp only [Bool.not_eq_true] at hc
      simp [minRaw, hc] at this
      omega
    have : ⌊(X : ℚ) * z⌋ = -1 := by
      rw [Int.floor_eq_iff]
      push_cast
      have h1 := mul_le_mul_of_nonneg_right b0' hp.le
      have h2 := mul_neg_of_neg_of_pos hX0 hp
      constructor <;> linarith
    have h2 : (2 : ℤ) ^ 1 ≤ 2 ^ (fo.W - 1) := pow_le_pow_right₀ (by norm_num) (by have := hw hs; omega)
    rw [this, ovf_of_range hW]
    · simp only [loRaw, minRaw, maxRaw, hs, if_true]
      split_ifs <;> omega
    · simp only [maxRaw, hs, if_true]; omega

example : right ⟨8, 4, true, .TRN, .WRAP⟩ ⟨6, 3, true, .TRN, .SAT⟩ (-77) 7 = -1 / 8 ∧
    right ⟨8, 4, true, .TRN, .WRAP⟩ ⟨6, 3, true, .TRN, .SAT⟩ 77 7 = 0 ∧
    right ⟨8, 4, true, .TRN, .WRAP⟩ ⟨6, 3, true, .TRN, .SAT⟩ 127 6 = 0 := by decide +kernel

end Props.ShiftLaws
