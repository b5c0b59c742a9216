import Verif.Proof.PowPwl

/-! # C35: PWL exponentials

`pow2 q f out x` is the output of `ac_pow2_pwl<q>` for the input `x` of type `f` and an unsigned output of type `out`, `none`
for a table read out of bounds. `exp n q f out x` is that of `ac_exp_pwl`, `n` being the least number of fraction bits of the
exponent inside it: 12, unless the macro `AC_POW_PWL_CHANGE_FRAC_BITS` lets the caller choose. `out.cvt r` is the assignment
of the exact number `r` to the output. -/

namespace Props.PowPwl
open Ac Model.PwlFixed

/-- **C35**, table safety: no input makes the functions read outside their tables. -/
theorem C35_in_table (n : ℕ) (q : QMode) (f out : Fmt) (x : ℚ) : (pow2 q f out x).isSome ∧ (exp n q f out x).isSome := by
  obtain ⟨y, hy⟩ := Proof.PowPwl.pow2_some q f out x
  obtain ⟨z, hz⟩ := Proof.PowPwl.pow2_some q (piiExp n f) out ((piiExp n f).cvt (x * log2e))
  exact ⟨by rw [hy]; rfl, by unfold exp; rw [hz]; rfl⟩

example : pow2 .TRN ⟨8, 4, true, .TRN, .WRAP⟩ ⟨16, 8, false, .TRN, .WRAP⟩ (-3 / 2) = some (45 / 128) ∧
    exp 12 .TRN ⟨8, 4, true, .TRN, .WRAP⟩ ⟨16, 8, false, .TRN, .WRAP⟩ (5 / 2) = some (3125 / 256) := by
  decide +kernel

/-- **C35**, base 2: for every input the output is the conversion of a positive number `r` within 1/400 of `2 ^ x`, not
smaller for a larger input. -/
theorem C35_pow2 (q : QMode) {f out : Fmt} (ho : 1 ≤ out.W) (hSo : out.S = false) {x x' : ℚ} (hx : f.Rep x) (hx' : f.Rep x')
    (hxx : x ≤ x') :
    ∃ r r' : ℚ, pow2 q f out x = some (out.cvt r) ∧ pow2 q f out x' = some (out.cvt r') ∧
    0 < r ∧ |(r : ℝ) - 2 ^ (x : ℝ)| ≤ 2 ^ (x : ℝ) / 400 ∧ |(r' : ℝ) - 2 ^ (x' : ℝ)| ≤ 2 ^ (x' : ℝ) / 400 ∧ r ≤ r' :=
  ⟨_, _, Proof.PowPwl.pow2_eq q ho hSo hx, Proof.PowPwl.pow2_eq q ho hSo hx', Proof.PowPwl.core_pos x, Proof.PowPwl.core_err x,
    Proof.PowPwl.core_err x', Proof.PowPwl.core_mono hxx⟩

example : (⟨8, 4, true, .TRN, .WRAP⟩ : Fmt).Rep (-3 / 2) ∧ (⟨8, 4, true, .TRN, .WRAP⟩ : Fmt).Rep (5 / 2) :=
  ⟨⟨-24, by decide, by decide, by decide +kernel⟩, ⟨40, by decide, by decide, by decide +kernel⟩⟩

/-- **C35**, scaling: adding the integer `k` to the input multiplies the number that is converted to the output by exactly
`2 ^ k`. With `k = 0`: the type of the input does not matter. -/
theorem C35_double (q : QMode) {f f' out : Fmt} (ho : 1 ≤ out.W) (hSo : out.S = false) {x x' : ℚ} (hx : f.Rep x)
    (hx' : f'.Rep x') (k : ℤ) (hk : x' = x + k) :
    ∃ r : ℚ, pow2 q f out x = some (out.cvt r) ∧ pow2 q f' out x' = some (out.cvt (r * 2 ^ k)) ∧
    |(r : ℝ) - 2 ^ (x : ℝ)| ≤ 2 ^ (x : ℝ) / 400 := by
  refine ⟨_, Proof.PowPwl.pow2_eq q ho hSo hx, ?_, Proof.PowPwl.core_err x⟩
  rw [Proof.PowPwl.pow2_eq q ho hSo hx', hk, Proof.PowPwl.core_add]

example : (⟨8, 4, true, .TRN, .WRAP⟩ : Fmt).Rep (-3 / 2) ∧ (⟨6, 4, false, .TRN, .WRAP⟩ : Fmt).Rep (-3 / 2 + 3) :=
  ⟨⟨-24, by decide, by decide, by decide +kernel⟩, ⟨6, by decide, by decide, by decide +kernel⟩⟩

/-- **C35**, base e: for every input the output is the conversion of a positive number `r` within 1/400 of `2 ^ t`, where `t`
is the exponent `x / ln 2` up to the precision of the multiplication; `r` is not smaller for a larger input. -/
theorem C35_exp (n : ℕ) (q : QMode) {f out : Fmt} (hW : 1 ≤ f.W) (ho : 1 ≤ out.W) (hSo : out.S = false)
    {x x' : ℚ} (hx : f.Rep x) (hx' : f.Rep x') (hxx : x ≤ x') :
    ∃ r r' t : ℚ, exp n q f out x = some (out.cvt r) ∧ exp n q f out x' = some (out.cvt r') ∧
    0 < r ∧ |(r : ℝ) - 2 ^ (t : ℝ)| ≤ 2 ^ (t : ℝ) / 400 ∧ |(t : ℝ) * Real.log 2 - x| ≤ 1 / 2 ^ n + |(x : ℝ)| / 200000 ∧ r ≤ r' :=
  ⟨_, _, _, Proof.PowPwl.exp_eq n q hW ho hSo hx, Proof.PowPwl.exp_eq n q hW ho hSo hx', Proof.PowPwl.core_pos _,
    Proof.PowPwl.core_err _, Proof.PowPwl.ex_err hW hx, Proof.PowPwl.core_mono (Proof.PowPwl.ex_mono hxx)⟩

/-- **C35**, base e, relative error: at most 1/256 for inputs up to 64 in magnitude. -/
theorem C35_exp_error {n : ℕ} (h12 : 12 ≤ n) (q : QMode) {f out : Fmt} (hW : 1 ≤ f.W) (ho : 1 ≤ out.W)
    (hSo : out.S = false) {x : ℚ} (hx : f.Rep x) (h64 : |x| ≤ 64) :
    ∃ r : ℚ, exp n q f out x = some (out.cvt r) ∧ |(r : ℝ) - Real.exp x| ≤ Real.exp x / 256 :=
  ⟨_, Proof.PowPwl.exp_eq n q hW ho hSo hx, Proof.PowPwl.exp_err h12 hW hx h64⟩

example : 1 ≤ (⟨8, 4, true, .TRN, .WRAP⟩ : Fmt).I + 1 + (12 : ℕ) ∧ |(5 / 2 : ℚ)| ≤ 64 := by decide +kernel

/-- **C35**, order of the outputs: a saturating output type keeps the order of the inputs. -/
theorem C35_output_mono (n : ℕ) (q : QMode) {f out : Fmt} (hW : 1 ≤ f.W) (ho : 1 ≤ out.W)
    (hSo : out.S = false) (hO : out.O = .SAT ∨ out.O = .SAT_SYM) {x x' : ℚ} (hx : f.Rep x) (hx' : f.Rep x') (hxx : x ≤ x') :
    (∃ y y', pow2 q f out x = some y ∧ pow2 q f out x' = some y' ∧ y ≤ y') ∧
    (∃ y y', exp n q f out x = some y ∧ exp n q f out x' = some y' ∧ y ≤ y') := by
  obtain ⟨r, r', h1, h2, -, -, -, h3⟩ := C35_pow2 q ho hSo hx hx' hxx
  obtain ⟨s, s', -, k1, k2, -, -, -, k3⟩ := C35_exp n q hW ho hSo hx hx' hxx
  exact ⟨⟨_, _, h1, h2, Fmt.cvt_mono hO h3⟩, ⟨_, _, k1, k2, Fmt.cvt_mono hO k3⟩⟩

example : pow2 .TRN ⟨8, 4, true, .TRN, .WRAP⟩ ⟨4, 4, false, .TRN, .SAT⟩ (9 / 2) = some 15 := by decide +kernel

end Props.PowPwl
