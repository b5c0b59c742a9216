import Verif.Proof.ComplexSqrt
import Verif.Props.ComplexRec

/-! # C57: the square root of a complex number

`f` is the type of the two parts of the input, `fm` the type of its squared magnitude (see `Props.ComplexRec.Holds`), `out`
the type of the parts of the output.  `none` stands for a table read out of bounds. -/

namespace Props.ComplexSqrt
open Ac Props.ComplexRec

/-- **C57**, no call reads outside the tables, whatever the input and the types. -/
theorem C57_in_table (q : QMode) (f fm out : Fmt) (a b : ℚ) : (Model.Complex.sqrt q f fm out a b).isSome := by
  have h := fun f' o x => Option.isSome_iff_exists.1 (SqrtPwl.C30_in_table q true f' o x)
  unfold Model.Complex.sqrt
  obtain ⟨m, hm⟩ := h fm (Model.Complex.modFmt f) (Model.Complex.magSqr fm a b)
  rw [hm]
  simp only [Option.bind_eq_bind, Option.bind_some]
  obtain ⟨x, hx⟩ := h (Model.Complex.sqFmt f) (Model.Complex.xyFmt f)
    ((Model.Complex.sqFmt f).cvt ((Model.Complex.tFmt' f).shr ((Model.Complex.tFmt' f).cvt ((Model.Complex.tFmt f).cvt (m + a))) 1))
  obtain ⟨y, hy⟩ := h (Model.Complex.sqFmt f) (Model.Complex.xyFmt f)
    ((Model.Complex.sqFmt f).cvt ((Model.Complex.tFmt' f).shr ((Model.Complex.tFmt' f).cvt ((Model.Complex.tFmt f).cvt (m - a))) 1))
  rw [hx, Option.bind_some, hy]
  rfl

example : Model.Complex.sqrt .TRN ⟨8, 4, true, .TRN, .WRAP⟩ ⟨15, 7, false, .TRN, .WRAP⟩ ⟨20, 6, true, .TRN, .SAT⟩ 3 4 =
    some (32775 / 16384, 8193 / 8192) := by decide +kernel

/-- **C57**, the result. With `M = √(a² + b²)` the root of `a + bi` in the right half-plane is `X ± iY` with
`X² = (M + a)/2`, `Y² = (M - a)/2` and the sign of `b`. The parts of the output are the conversions of `x` and `±y`, not
negative before the sign, with squares within `M/340` of those. No bit of an intermediate type is missing: the integer width
only has to be at least -26, below which the type of `x` and `y` has too few fraction bits. -/
theorem C57_sqrt (q : QMode) {f fm out : Fmt} (hW : 1 ≤ f.W) (hS : f.S = true) (hI : -26 ≤ f.I) {a b : ℚ} (ha : f.Rep a)
    (hb : f.Rep b) (h : Holds f fm a b) {M : ℝ} (hM : M = Real.sqrt ((a : ℝ) ^ 2 + (b : ℝ) ^ 2)) :
    ∃ x y : ℚ, Model.Complex.sqrt q f fm out a b = some (out.cvt x, out.cvt (if b < 0 then -y else y)) ∧ 0 ≤ x ∧ 0 ≤ y ∧
      |(x : ℝ) ^ 2 - (M + a) / 2| ≤ M / 340 ∧ |(y : ℝ) ^ 2 - (M - a) / 2| ≤ M / 340 := by
  obtain ⟨x, y, h1, -, -, h2⟩ := Proof.ComplexSqrt.sqrt_eq q hW hS hI ha hb h.W h.S h.O
    (Proof.Complex.m_rep h.W h.F h.S ha hb h.I) hM
  exact ⟨x, y, h1, h2⟩

example : Holds ⟨8, 4, true, .TRN, .WRAP⟩ ⟨15, 7, false, .TRN, .WRAP⟩ (-4) (-1 / 16) ∧
    Model.Complex.sqrt .TRN ⟨8, 4, true, .TRN, .WRAP⟩ ⟨15, 7, false, .TRN, .WRAP⟩ ⟨20, 6, true, .TRN, .SAT⟩ (-4) (-1 / 16) =
      some (771 / 16384, -16405 / 8192) := by
  refine ⟨?_, by decide +kernel⟩
  constructor <;> first | decide | (simp only []; norm_num)

/-- **C57**, the root of zero is zero. -/
theorem C57_zero (q : QMode) {f fm out : Fmt} (hW : 1 ≤ f.W) (hS : f.S = true) (hI : -26 ≤ f.I) (ho : 1 ≤ out.W)
    (h : Holds f fm 0 0) : Model.Complex.sqrt q f fm out 0 0 = some (0, 0) := by
  have hr : f.Rep 0 := ⟨0, minRaw_nonpos _ _, maxRaw_nonneg _ _, by simp [Fmt.val]⟩
  obtain ⟨x, y, h1, -, -, h2, h3⟩ := C57_sqrt q (out := out) hW hS hI hr hr h rfl
  have hx : x = 0 := by simpa using h2
  have hy : y = 0 := by simpa using h3
  rw [h1, hx, hy]
  simp [Fmt.cvt_zero' ho]

example : Holds ⟨8, 4, true, .TRN, .WRAP⟩ ⟨15, 7, false, .TRN, .WRAP⟩ 0 0 := by
  constructor <;> first | decide | (simp only []; norm_num)

/-- **C57**, not more than that: the root of -4 is `2i`, and the real part of the output is not zero but 731/16384. -/
theorem C57_negative_real :
    Model.Complex.sqrt .TRN ⟨8, 4, true, .TRN, .WRAP⟩ ⟨15, 7, false, .TRN, .WRAP⟩ ⟨20, 6, true, .TRN, .SAT⟩ (-4) 0 =
      some (731 / 16384, 4101 / 2048) := by decide +kernel

/-- **C57**, the bound on the integer width is needed: with integer width -80 the root of `2^-82`, which is `2^-41`, is
lost, although the output type has 110 fraction bits. -/
theorem C57_tiny_wrong : (⟨8, -80, true, .TRN, .WRAP⟩ : Fmt).Rep (2 ^ (-82 : ℤ)) ∧
    Model.Complex.sqrt .TRN ⟨8, -80, true, .TRN, .WRAP⟩ ⟨15, -161, false, .TRN, .WRAP⟩ ⟨120, 10, true, .TRN, .SAT⟩
      (2 ^ (-82 : ℤ)) 0 = some (0, 0) := by
  refine ⟨⟨64, by decide, by decide, ?_⟩, by decide +kernel⟩
  norm_num [Fmt.val, Fmt.F]

end Props.ComplexSqrt
