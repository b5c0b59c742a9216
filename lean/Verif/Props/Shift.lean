import Verif.Proof.Shift

/-! # C13: ac_shift_left and ac_shift_right convert once

`fx` is the format of the input, `fo` that of the output; `fx.val X` is the value of the input word `X`.
`fo.cvt v` is the assignment of the exact number `v` to a variable of the output type (one rounding, one overflow
step, in the modes of `fo`).  Shift counts of type `unsigned int` are assumed below 2^31: the code masks or
converts them to `int`. -/

namespace Props.Shift
open Ac

/-- `X` is a word of format `f`. -/
def Word (f : Fmt) (X : ℤ) : Prop := minRaw f.W f.S ≤ X ∧ X ≤ maxRaw f.W f.S

/-- **C13**, right shift of an unsigned input, unsigned count. -/
theorem C13_right_unsigned {fx fo : Fmt} (hx : 1 ≤ fx.W) (hSx : fx.S = false) (hSo : fo.S = false) {X : ℤ}
    (hX : Word fx X) (n : ℕ) :
    Model.Shift.rightUU fx fo X n = fo.cvt (fx.val X * 2 ^ (-(n : ℤ))) :=
  Proof.Shift.rightUU_eq hx hSx hSo hX n

example : Model.Shift.rightUU ⟨8, 4, false, .TRN, .WRAP⟩ ⟨6, 3, false, .RND_CONV, .SAT⟩ 201 3 =
    (⟨6, 3, false, .RND_CONV, .SAT⟩ : Fmt).cvt ((⟨8, 4, false, .TRN, .WRAP⟩ : Fmt).val 201 * 2 ^ (-((3 : ℕ) : ℤ))) :=
  C13_right_unsigned (by decide) rfl rfl (by unfold Word; decide) 3

/-- **C13**, right shift of a signed input, unsigned count. -/
theorem C13_right_signed {fx fo : Fmt} (hx : 1 ≤ fx.W) (hSx : fx.S = true) (hSo : fo.S = true) {X : ℤ}
    (hX : Word fx X) (n : ℕ) :
    Model.Shift.rightSU fx fo X n = fo.cvt (fx.val X * 2 ^ (-(n : ℤ))) :=
  Proof.Shift.rightSU_eq hx hSx hSo hX n

example : Model.Shift.rightSU ⟨8, 4, true, .TRN, .WRAP⟩ ⟨6, 3, true, .TRN_ZERO, .SAT⟩ (-77) 3 =
    (⟨6, 3, true, .TRN_ZERO, .SAT⟩ : Fmt).cvt
      ((⟨8, 4, true, .TRN, .WRAP⟩ : Fmt).val (-77) * 2 ^ (-((3 : ℕ) : ℤ))) :=
  C13_right_signed (by decide) rfl rfl (by unfold Word; decide) 3

/-- **C13**, right shift of an unsigned input, count of either sign. -/
theorem C13_right_unsigned_int {fx fo : Fmt} (hx : 1 ≤ fx.W) (hW : 1 ≤ fo.W) (hSx : fx.S = false) (hSo : fo.S = false)
    {X : ℤ} (hX : Word fx X) (n : ℤ) :
    Model.Shift.rightUS fx fo X n = fo.cvt (fx.val X * 2 ^ (-n)) :=
  Proof.Shift.rightUS_eq hx hW hSx hSo hX n

example : Model.Shift.rightUS ⟨8, 4, false, .TRN, .WRAP⟩ ⟨6, 3, false, .RND_CONV, .SAT⟩ 201 (-2) =
    (⟨6, 3, false, .RND_CONV, .SAT⟩ : Fmt).cvt ((⟨8, 4, false, .TRN, .WRAP⟩ : Fmt).val 201 * 2 ^ (-(-2 : ℤ))) :=
  C13_right_unsigned_int (by decide) (by decide) rfl rfl (by unfold Word; decide) (-2)

/-- **C13**, right shift of a signed input, count of either sign. -/
theorem C13_right_signed_int {fx fo : Fmt} (hx : 1 ≤ fx.W) (hW : 1 ≤ fo.W) (hSx : fx.S = true) (hSo : fo.S = true)
    {X : ℤ} (hX : Word fx X) (n : ℤ) :
    Model.Shift.rightSS fx fo X n = fo.cvt (fx.val X * 2 ^ (-n)) :=
  Proof.Shift.rightSS_eq hx hW hSx hSo hX n

example : Model.Shift.rightSS ⟨8, 4, true, .TRN, .WRAP⟩ ⟨6, 3, true, .RND_INF, .WRAP⟩ (-77) (-5) =
    (⟨6, 3, true, .RND_INF, .WRAP⟩ : Fmt).cvt ((⟨8, 4, true, .TRN, .WRAP⟩ : Fmt).val (-77) * 2 ^ (-(-5 : ℤ))) :=
  C13_right_signed_int (by decide) (by decide) rfl rfl (by unfold Word; decide) (-5)

/-- **C13**, left shift of an unsigned input, unsigned count. -/
theorem C13_left_unsigned {fx fo : Fmt} (hx : 1 ≤ fx.W) (hW : 1 ≤ fo.W) (hSx : fx.S = false) {X : ℤ}
    (hX : Word fx X) (n : ℕ) :
    Model.Shift.leftUU fx fo X n = fo.cvt (fx.val X * 2 ^ (n : ℤ)) :=
  Proof.Shift.leftUU_eq hx hW hSx hX n

example : Model.Shift.leftUU ⟨8, 4, false, .TRN, .WRAP⟩ ⟨6, 6, false, .RND, .SAT⟩ 201 3 =
    (⟨6, 6, false, .RND, .SAT⟩ : Fmt).cvt ((⟨8, 4, false, .TRN, .WRAP⟩ : Fmt).val 201 * 2 ^ ((3 : ℕ) : ℤ)) :=
  C13_left_unsigned (by decide) (by decide) rfl (by unfold Word; decide) 3

/-- **C13**, left shift of an unsigned input, count of either sign. -/
theorem C13_left_unsigned_int {fx fo : Fmt} (hx : 1 ≤ fx.W) (hW : 1 ≤ fo.W) (hSx : fx.S = false) (hSo : fo.S = false)
    {X : ℤ} (hX : Word fx X) (n : ℤ) :
    Model.Shift.leftUS fx fo X n = fo.cvt (fx.val X * 2 ^ n) :=
  Proof.Shift.leftUS_eq hx hW hSx hSo hX n

example : Model.Shift.leftUS ⟨8, 4, false, .TRN, .WRAP⟩ ⟨6, 6, false, .RND_ZERO, .SAT⟩ 201 (-3) =
    (⟨6, 6, false, .RND_ZERO, .SAT⟩ : Fmt).cvt ((⟨8, 4, false, .TRN, .WRAP⟩ : Fmt).val 201 * 2 ^ (-3 : ℤ)) :=
  C13_left_unsigned_int (by decide) (by decide) rfl rfl (by unfold Word; decide) (-3)

/-- **C13**, left shift of a signed input, count of either sign. -/
theorem C13_left_signed_int {fx fo : Fmt} (hx : 1 ≤ fx.W) (hW : 1 ≤ fo.W) (hSx : fx.S = true) (hSo : fo.S = true)
    {X : ℤ} (hX : Word fx X) (n : ℤ) :
    Model.Shift.leftSS fx fo X n = fo.cvt (fx.val X * 2 ^ n) :=
  Proof.Shift.leftSS_eq hx hW hSx hSo hX n

example : Model.Shift.leftSS ⟨4, 2, true, .TRN, .WRAP⟩ ⟨2, 2, true, .TRN_ZERO, .WRAP⟩ 5 1 =
    (⟨2, 2, true, .TRN_ZERO, .WRAP⟩ : Fmt).cvt ((⟨4, 2, true, .TRN, .WRAP⟩ : Fmt).val 5 * 2 ^ (1 : ℤ)) :=
  C13_left_signed_int (by decide) (by decide) rfl rfl (by unfold Word; decide) 1

/-- **C13**, left shift of a signed input, unsigned count. What is missing from the full statement: wrapping outputs
whose rounding mode looks at the sign (AC_TRN_ZERO, AC_RND_ZERO, AC_RND_INF), for which it is false
(`C13_left_signed_wrong`). -/
theorem C13_left_signed_partial {fx fo : Fmt} (hx : 1 ≤ fx.W) (hW : 1 ≤ fo.W) (hSx : fx.S = true)
    (hm : fo.O ≠ .WRAP ∨ fo.Q ∉ [QMode.TRN_ZERO, .RND_ZERO, .RND_INF]) {X : ℤ} (hX : Word fx X) (n : ℕ) :
    Model.Shift.leftSU fx fo X n = fo.cvt (fx.val X * 2 ^ (n : ℤ)) := by
  apply Proof.Shift.leftSU_eq hx hW hSx _ hX n
  refine hm.imp_right fun h => ?_
  cases hq : fo.Q <;> simp [hq] at h <;> rfl

example : Model.Shift.leftSU ⟨8, 4, true, .TRN, .WRAP⟩ ⟨6, 6, true, .RND_INF, .SAT⟩ (-77) 3 =
    (⟨6, 6, true, .RND_INF, .SAT⟩ : Fmt).cvt ((⟨8, 4, true, .TRN, .WRAP⟩ : Fmt).val (-77) * 2 ^ ((3 : ℕ) : ℤ)) :=
  C13_left_signed_partial (by decide) (by decide) rfl (by decide) (by unfold Word; decide) 3

/-- **C13 is false** for `ac_shift_left` of a signed input with an unsigned count into a wrapping output that
truncates toward zero: 1.25 shifted left by 1 into `ac_fixed<2,2,true,AC_TRN_ZERO>` gives -1; 2.5 converted
to that type is -2. -/
theorem C13_left_signed_wrong :
    Model.Shift.leftSU ⟨4, 2, true, .TRN, .WRAP⟩ ⟨2, 2, true, .TRN_ZERO, .WRAP⟩ 5 1 = -1 ∧
    (⟨2, 2, true, .TRN_ZERO, .WRAP⟩ : Fmt).cvt ((⟨4, 2, true, .TRN, .WRAP⟩ : Fmt).val 5 * 2 ^ (1 : ℤ)) = -2 := by
  decide +kernel

/-- **C13**, the mode restriction of `C13_left_signed_partial` is the only one needed: a signed count on the same
input is converted correctly. -/
theorem C13_left_signed_versions_differ :
    Model.Shift.leftSS ⟨4, 2, true, .TRN, .WRAP⟩ ⟨2, 2, true, .TRN_ZERO, .WRAP⟩ 5 1 ≠
    Model.Shift.leftSU ⟨4, 2, true, .TRN, .WRAP⟩ ⟨2, 2, true, .TRN_ZERO, .WRAP⟩ 5 1 := by
  decide +kernel

end Props.Shift
