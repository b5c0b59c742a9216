import Verif.Props.SqrtFixed
import Verif.Props.IntAlgos

/-! # C92: laws of the square roots

What a user of `ac_sqrt` relies on besides the value of one root: the root depends on the value of the argument and not on its type, a
factor of four in the argument is a factor of two in the root, the version for integers and the one for fixed point agree, a root of a
root is a fourth root, and roots of products, sums and neighbours are related as the exact ones. -/

namespace Props.SqrtLaws
open Ac Model.SqrtFixed Model.Sqrt Props.SqrtFixed Props.IntAlgos

/-- Words of an unsigned type. -/
def Word (f : Fmt) (X : ℤ) : Prop := 1 ≤ f.W ∧ f.S = false ∧ 0 ≤ X ∧ X < 2 ^ f.W

/-- Unsigned output types. -/
def Out (f : Fmt) : Prop := 1 ≤ f.W ∧ f.S = false

theorem root {fx fo : Fmt} {X : ℤ} (hX : Word fx X) (ho : Out fo) : sqrtFixed fx fo X = fo.cvt (Real.sqrt (fx.val X : ℝ)) :=
  C07_correctly_rounded hX.1 ho.1 hX.2.1 ho.2 hX.2.2.1 hX.2.2.2

/-- **C92**, the root depends on the value of the argument, not on its type. -/
theorem C92_type {fx fy fo : Fmt} {X Y : ℤ} (hX : Word fx X) (hY : Word fy Y) (ho : Out fo) (h : fx.val X = fy.val Y) :
    sqrtFixed fx fo X = sqrtFixed fy fo Y := by
  rw [root hX ho, root hY ho, h]

example : sqrtFixed ⟨8, 3, false, .TRN, .WRAP⟩ ⟨6, 2, false, .RND, .SAT⟩ 201 = sqrtFixed ⟨20, 9, false, .RND, .SAT⟩ ⟨6, 2, false, .RND, .SAT⟩ 12864 :=
  C92_type ⟨by decide, rfl, by decide, by decide⟩ ⟨by decide, rfl, by decide, by decide⟩ ⟨by decide, rfl⟩ (by decide +kernel)

/-- **C92**, scaling: an argument that is `4^k` times as large, with a point of the output type moved by `k`, gives a root that is
`2^k` times as large, in every rounding and overflow mode. -/
theorem C92_scale {fx fy fo : Fmt} {X Y : ℤ} (hX : Word fx X) (hY : Word fy Y) (ho : Out fo) (k : ℤ) (h : fy.val Y = 4 ^ k * fx.val X) :
    sqrtFixed fy ⟨fo.W, fo.I + k, fo.S, fo.Q, fo.O⟩ Y = 2 ^ k * sqrtFixed fx fo X := by
  rw [root hX ho, root (fo := ⟨fo.W, fo.I + k, fo.S, fo.Q, fo.O⟩) hY ⟨ho.1, ho.2⟩, h]
  have e : Real.sqrt (((4 ^ k * fx.val X : ℚ)) : ℝ) = 2 ^ k * Real.sqrt (fx.val X : ℝ) := by
    push_cast
    have h2 : (0 : ℝ) ≤ 2 ^ k := (zpow_pos (by norm_num) k).le
    rw [show (4 : ℝ) ^ k = 2 ^ k * 2 ^ k by rw [← mul_zpow]; norm_num, Real.sqrt_mul (mul_nonneg h2 h2), Real.sqrt_mul_self h2]
  have hF : (⟨fo.W, fo.I + k, fo.S, fo.Q, fo.O⟩ : Fmt).F = fo.F - k := by unfold Fmt.F; simp only []; ring
  rw [e]
  unfold Fmt.cvt Fmt.cvtRaw Fmt.val
  rw [hF]
  generalize Real.sqrt _ = s
  have e2 : (2 : ℝ) ^ k * s * 2 ^ (fo.F - k) = s * 2 ^ fo.F := by
    rw [zpow_sub₀ (by norm_num)]; field_simp
  rw [e2, neg_sub, zpow_sub₀ (by norm_num), zpow_neg]
  ring

example : sqrtFixed ⟨8, 7, false, .TRN, .WRAP⟩ ⟨6, 4, false, .RND_CONV, .SAT⟩ 201 =
    2 ^ (2 : ℤ) * sqrtFixed ⟨8, 3, false, .TRN, .WRAP⟩ ⟨6, 2, false, .RND_CONV, .SAT⟩ 201 :=
  C92_scale (fo := ⟨6, 2, false, .RND_CONV, .SAT⟩) ⟨by decide, rfl, by decide, by decide⟩ ⟨by decide, rfl, by decide, by decide⟩
    ⟨by decide, rfl⟩ 2 (by decide +kernel)

theorem val_nonneg {f : Fmt} {r : ℤ} (h : 0 ≤ r) : 0 ≤ f.val r := by
  unfold Fmt.val; exact mul_nonneg (by exact_mod_cast h) (Proof.Shift.zpow_pos' _).le

/-- The modes that round toward zero. -/
def Down (q : QMode) : Prop := q = .TRN ∨ q = .TRN_ZERO

theorem quant_down {q : QMode} (h : Down q) {x : ℝ} (hx : 0 ≤ x) : quant q x = ⌊x⌋ := by
  rcases h with rfl | rfl
  · rfl
  · simp [quant, not_lt.2 hx]

/-- A root that fits, truncated. -/
theorem trunc_root {fo : Fmt} (ho : Out fo) (hq : Down fo.Q) {x : ℚ} (hr : x < 4 ^ fo.I) :
    ∃ n : ℤ, fo.cvt (Real.sqrt (x : ℝ)) = fo.val n ∧ n = ⌊Real.sqrt (x : ℝ) * 2 ^ fo.F⌋ ∧ 0 ≤ n ∧ n < 2 ^ fo.W := by
  have hp : (0 : ℝ) < 2 ^ fo.F := zpow_pos (by norm_num) _
  have h0 : 0 ≤ Real.sqrt (x : ℝ) * 2 ^ fo.F := mul_nonneg (Real.sqrt_nonneg _) hp.le
  have h1 : Real.sqrt (x : ℝ) < 2 ^ fo.I := by
    rw [Real.sqrt_lt' (zpow_pos (by norm_num) _), sq, ← mul_zpow]
    have : (x : ℝ) < ((4 ^ fo.I : ℚ) : ℝ) := Rat.cast_lt.2 hr
    push_cast at this
    norm_num
    exact this
  have h2 : Real.sqrt (x : ℝ) * 2 ^ fo.F < ((2 ^ fo.W : ℤ) : ℝ) := by
    have := mul_lt_mul_of_pos_right h1 hp
    rw [← zpow_add₀ (by norm_num), show fo.I + fo.F = (fo.W : ℤ) by unfold Fmt.F; ring, zpow_natCast] at this
    push_cast
    exact this
  have n0 : 0 ≤ ⌊Real.sqrt (x : ℝ) * 2 ^ fo.F⌋ := Int.floor_nonneg.2 h0
  have n1 : ⌊Real.sqrt (x : ℝ) * 2 ^ fo.F⌋ < 2 ^ fo.W := Int.floor_lt.2 h2
  refine ⟨_, ?_, rfl, n0, n1⟩
  unfold Fmt.cvt Fmt.cvtRaw
  rw [quant_down hq h0, ovf_of_range ho.1]
  · rw [ho.2]; cases fo.O <;> simp [loRaw, minRaw] <;> exact n0
  · rw [ho.2]; simp only [maxRaw, Bool.false_eq_true, if_false]; omega

/-- **C92**, the truncated root of an argument whose root fits the output: its square is at most the argument, that of the next number
of the output type is above it. -/
theorem C92_square {fx fo : Fmt} {X : ℤ} (hX : Word fx X) (ho : Out fo) (hq : Down fo.Q) (hr : fx.val X < 4 ^ fo.I) :
    0 ≤ sqrtFixed fx fo X ∧ sqrtFixed fx fo X ^ 2 ≤ fx.val X ∧ fx.val X < (sqrtFixed fx fo X + 2 ^ (-fo.F)) ^ 2 := by
  obtain ⟨n, e, hn, n0, -⟩ := trunc_root ho hq hr
  have hx0 : (0 : ℝ) ≤ (fx.val X : ℚ) := by exact_mod_cast val_nonneg hX.2.2.1
  have hp : (0 : ℝ) < 2 ^ fo.F := zpow_pos (by norm_num) _
  have hs := Real.sq_sqrt hx0
  have hs0 := Real.sqrt_nonneg ((fx.val X : ℚ) : ℝ)
  have ev : ((fo.val n : ℚ) : ℝ) = n / 2 ^ fo.F := by
    unfold Fmt.val; push_cast; rw [zpow_neg, div_eq_mul_inv]
  have a := Int.floor_le (Real.sqrt ((fx.val X : ℚ) : ℝ) * 2 ^ fo.F)
  have b := Int.lt_floor_add_one (Real.sqrt ((fx.val X : ℚ) : ℝ) * 2 ^ fo.F)
  rw [← hn] at a b
  rw [root hX ho, e]
  have v0 := val_nonneg (f := fo) n0
  have h1 : ((fo.val n : ℚ) : ℝ) ≤ Real.sqrt ((fx.val X : ℚ) : ℝ) := by rw [ev, div_le_iff₀ hp]; exact a
  have h2 : Real.sqrt ((fx.val X : ℚ) : ℝ) < ((fo.val n + 2 ^ (-fo.F) : ℚ) : ℝ) := by
    rw [Rat.cast_add, ev]; push_cast; rw [zpow_neg, ← one_div, ← add_div, lt_div_iff₀ hp]; exact b
  refine ⟨v0, ?_, ?_⟩
  · have := pow_le_pow_left₀ (show (0 : ℝ) ≤ (fo.val n : ℚ) by exact_mod_cast v0) h1 2
    rw [hs] at this
    exact_mod_cast this
  · have := pow_lt_pow_left₀ h2 hs0 (n := 2) (by norm_num)
    rw [hs] at this
    exact_mod_cast this

example : sqrtFixed ⟨8, 3, false, .TRN, .WRAP⟩ ⟨6, 2, false, .TRN, .WRAP⟩ 201 = 40 / 16 ∧ ((40 : ℚ) / 16) ^ 2 ≤ 201 / 32 ∧
    ((201 : ℚ) / 32) < (41 / 16) ^ 2 ∧ (⟨8, 3, false, .TRN, .WRAP⟩ : Fmt).val 201 < 4 ^ (2 : ℤ) := by
  refine ⟨?_, ?_, ?_, ?_⟩ <;> decide +kernel

/-- **C92**, a root of a root is a fourth root: if both are truncated, the first fits its type and that has at least twice as many
fraction bits as the output, the output is the fourth root of the argument, converted once. -/
theorem C92_nested {fx m fo : Fmt} {X : ℤ} (hX : Word fx X) (hm : Out m) (ho : Out fo) (hqm : Down m.Q) (hqo : Down fo.Q)
    (hF : 2 * fo.F ≤ m.F) (hr : fx.val X < 4 ^ m.I) :
    sqrtFixed m fo (m.raw (sqrtFixed fx m X)) = fo.cvt (Real.sqrt (Real.sqrt (fx.val X : ℝ))) := by
  obtain ⟨n, e, hn, n0, n1⟩ := trunc_root hm hqm hr
  rw [root hX hm, e, Fmt.raw_val, root ⟨hm.1, hm.2, n0, n1⟩ ho]
  set s := Real.sqrt ((fx.val X : ℚ) : ℝ) with hs
  have hs0 : 0 ≤ s := Real.sqrt_nonneg _
  have hpo : (0 : ℝ) < 2 ^ fo.F := zpow_pos (by norm_num) _
  have hpm : (0 : ℝ) < 2 ^ m.F := zpow_pos (by norm_num) _
  have ev : ((m.val n : ℚ) : ℝ) = n / 2 ^ m.F := by
    unfold Fmt.val; push_cast; rw [zpow_neg, div_eq_mul_inv]
  unfold Fmt.cvt Fmt.cvtRaw
  rw [quant_down hqo (by positivity), quant_down hqo (by positivity)]
  congr 2
  refine le_antisymm (Int.floor_mono (mul_le_mul_of_nonneg_right (Real.sqrt_le_sqrt ?_) hpo.le)) ?_
  · rw [ev, div_le_iff₀ hpm, hn]; exact Int.floor_le _
  have k0 : 0 ≤ ⌊Real.sqrt s * 2 ^ fo.F⌋ := Int.floor_nonneg.2 (by positivity)
  have k1 := Int.floor_le (Real.sqrt s * 2 ^ fo.F)
  set k := ⌊Real.sqrt s * 2 ^ fo.F⌋
  have k0' : (0 : ℝ) ≤ k := by exact_mod_cast k0
  obtain ⟨d, hd⟩ := Int.eq_ofNat_of_zero_le (show 0 ≤ m.F - 2 * fo.F by omega)
  have hmF : (2 : ℝ) ^ m.F = 2 ^ d * (2 ^ fo.F) ^ 2 := by
    rw [show m.F = (d : ℤ) + 2 * fo.F by omega, zpow_add₀ (by norm_num), zpow_natCast, two_mul, zpow_add₀ (by norm_num), sq]
  have hk : ((k ^ 2 * 2 ^ d : ℤ) : ℝ) ≤ s * 2 ^ m.F := by
    have := pow_le_pow_left₀ k0' k1 2
    rw [mul_pow, Real.sq_sqrt hs0] at this
    have h2 := mul_le_mul_of_nonneg_right this (show (0 : ℝ) ≤ 2 ^ d by positivity)
    push_cast
    rw [hmF]
    linarith
  have hkn : ((k ^ 2 * 2 ^ d : ℤ) : ℝ) ≤ n := by
    rw [hn]; exact_mod_cast Int.le_floor.2 hk
  rw [Int.le_floor, ← div_le_iff₀ hpo]
  apply Real.le_sqrt_of_sq_le
  rw [ev, hmF, div_pow, div_le_div_iff₀ (by positivity) (by positivity)]
  push_cast at hkn
  have := mul_le_mul_of_nonneg_right hkn (show (0 : ℝ) ≤ (2 ^ fo.F) ^ 2 by positivity)
  linarith

example : sqrtFixed ⟨16, 4, false, .TRN, .WRAP⟩ ⟨6, 3, false, .TRN, .WRAP⟩
      ((⟨16, 4, false, .TRN, .WRAP⟩ : Fmt).raw (sqrtFixed ⟨12, 6, false, .TRN, .WRAP⟩ ⟨16, 4, false, .TRN, .WRAP⟩ 3000)) =
    (⟨6, 3, false, .TRN, .WRAP⟩ : Fmt).cvt (Real.sqrt (Real.sqrt ((⟨12, 6, false, .TRN, .WRAP⟩ : Fmt).val 3000 : ℝ))) :=
  C92_nested ⟨by decide, rfl, by decide, by decide⟩ ⟨by decide, rfl⟩ ⟨by decide, rfl⟩ (Or.inl rfl) (Or.inl rfl) (by decide) (by decide +kernel)

/-- With a rounded root in between, the root of the root is not the fourth root: the root of 15 is rounded to 4, whose root 2 is above
the fourth root of 15. -/
theorem C92_nested_round_wrong :
    sqrtFixed ⟨8, 8, false, .TRN, .WRAP⟩ ⟨8, 8, false, .RND, .WRAP⟩ 15 = 4 ∧
    sqrtFixed ⟨8, 8, false, .RND, .WRAP⟩ ⟨8, 8, false, .TRN, .WRAP⟩ 4 = 2 ∧ Real.sqrt (Real.sqrt 15) < 2 := by
  refine ⟨by decide +kernel, by decide +kernel, ?_⟩
  rw [Real.sqrt_lt' (by norm_num), Real.sqrt_lt' (by norm_num)]
  norm_num

/-- **C92**, the version for integers and the one for fixed point agree on whole numbers, for every width of the output. -/
theorem C92_integer {XW OW x : ℕ} (hXW : 1 ≤ XW) (hOW : 1 ≤ OW) (hx : x < 2 ^ XW) :
    sqrtFixed ⟨XW, XW, false, .TRN, .WRAP⟩ ⟨OW, OW, false, .TRN, .WRAP⟩ x = (sqrtInt XW OW false x : ℤ) := by
  rw [root ⟨hXW, rfl, by omega, by exact_mod_cast hx⟩ ⟨hOW, rfl⟩]
  unfold sqrtInt
  rw [root_eq hXW hx]
  unfold Fmt.cvt Fmt.cvtRaw Fmt.val
  simp only [Fmt.F, sub_self, neg_zero, zpow_zero, mul_one, ovf, quant]
  push_cast
  rw [Real.floor_real_sqrt_eq_nat_sqrt]

example : sqrtFixed ⟨9, 9, false, .TRN, .WRAP⟩ ⟨3, 3, false, .TRN, .WRAP⟩ (500 : ℕ) = (sqrtInt 9 3 false 500 : ℤ) :=
  C92_integer (by norm_num) (by norm_num) (by norm_num)

/-- **C92**, order, neighbours, sums and products of integer roots: for output types that hold them, a larger argument has no smaller
root, the next argument a root that is at most one larger, the root of a sum is at most one above the sum of the roots and no smaller
than either, and the product of two roots is at most the root of the product. -/
theorem C92_int_laws {XW YW ZW OW x y : ℕ} {OS : Bool} (hX : 1 ≤ XW) (hY : 1 ≤ YW) (hZ : 1 ≤ ZW) (hx : x < 2 ^ XW) (hy : y < 2 ^ YW)
    (hW : (max (max XW YW) ZW + 1) / 2 + (if OS then 1 else 0) ≤ OW) :
    (x ≤ y → sqrtInt XW OW OS x ≤ sqrtInt YW OW OS y) ∧
    (x + 1 < 2 ^ XW → sqrtInt XW OW OS (x + 1) ≤ sqrtInt XW OW OS x + 1) ∧
    (x + y < 2 ^ ZW → max (sqrtInt XW OW OS x) (sqrtInt YW OW OS y) ≤ sqrtInt ZW OW OS (x + y) ∧
      sqrtInt ZW OW OS (x + y) ≤ sqrtInt XW OW OS x + sqrtInt YW OW OS y + 1) ∧
    (x * y < 2 ^ ZW → sqrtInt XW OW OS x * sqrtInt YW OW OS y ≤ sqrtInt ZW OW OS (x * y)) := by
  have wX : (XW + 1) / 2 + (if OS then 1 else 0) ≤ OW := by omega
  have wY : (YW + 1) / 2 + (if OS then 1 else 0) ≤ OW := by omega
  have wZ : (ZW + 1) / 2 + (if OS then 1 else 0) ≤ OW := by omega
  rw [C06_sqrt_output hX hx wX, C06_sqrt_output hY hy wY]
  have a1 := Nat.lt_succ_sqrt x
  have b1 := Nat.lt_succ_sqrt y
  rw [Nat.succ_eq_add_one] at a1 b1
  refine ⟨fun h => ?_, fun h => ?_, fun h => ?_, fun h => ?_⟩
  · exact_mod_cast Nat.sqrt_le_sqrt h
  · rw [C06_sqrt_output hX h wX]
    have : Nat.sqrt (x + 1) < Nat.sqrt x + 2 := by
      rw [Nat.sqrt_lt]; nlinarith
    omega
  · rw [C06_sqrt_output hZ h wZ]
    have h1 : Nat.sqrt x ≤ Nat.sqrt (x + y) := Nat.sqrt_le_sqrt (by omega)
    have h2 : Nat.sqrt y ≤ Nat.sqrt (x + y) := Nat.sqrt_le_sqrt (by omega)
    have h3 : Nat.sqrt (x + y) < Nat.sqrt x + Nat.sqrt y + 2 := by
      rw [Nat.sqrt_lt]; nlinarith
    exact ⟨max_le (by omega) (by omega), by omega⟩
  · rw [C06_sqrt_output hZ h wZ]
    have : Nat.sqrt x * Nat.sqrt y ≤ Nat.sqrt (x * y) := by
      rw [Nat.le_sqrt]
      have := Nat.mul_le_mul (Nat.sqrt_le x) (Nat.sqrt_le y)
      nlinarith
    exact_mod_cast this

example : sqrtInt 10 6 true (500 + 15) ≤ sqrtInt 9 6 true 500 + sqrtInt 4 6 true 15 + 1 :=
  ((C92_int_laws (XW := 9) (YW := 4) (ZW := 10) (by norm_num) (by norm_num) (by norm_num) (by norm_num) (by norm_num) (by decide)).2.2.1
    (by norm_num)).2

example : sqrtInt 9 6 true 500 = 22 ∧ sqrtInt 4 6 true 15 = 3 ∧ sqrtInt 10 6 true 515 = 22 ∧ sqrtInt 9 6 true 501 = 22 := by
  refine ⟨?_, ?_, ?_, ?_⟩ <;> decide +kernel

/-- The order fails in an output type that wraps: in two bits the root of 15 is 3 and that of 16 is 0. -/
theorem C92_order_wrong :
    sqrtFixed ⟨5, 5, false, .TRN, .WRAP⟩ ⟨2, 2, false, .TRN, .WRAP⟩ 15 = 3 ∧
    sqrtFixed ⟨5, 5, false, .TRN, .WRAP⟩ ⟨2, 2, false, .TRN, .WRAP⟩ 16 = 0 := by
  refine ⟨?_, ?_⟩ <;> decide +kernel

end Props.SqrtLaws
