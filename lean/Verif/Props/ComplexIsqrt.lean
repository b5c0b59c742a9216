import Verif.Proof.ComplexIsqrt
import Verif.Props.ComplexSqrt

/-! # C58: the inverse square root of a complex number

`f` is the type of the two parts of the input, `fc` that of the parts of its conjugate, `fm` and `fmc` the types of the squared
magnitudes of the two (all decided by the class `ac_complex` outside the library; see `Props.ComplexRec.Holds`), `out` the type
of the parts of the output.  `none` stands for a table read out of bounds. -/

namespace Props.ComplexIsqrt
open Ac Props.ComplexRec

/-- **C58**, no call reads outside the tables, whatever the input and the types; zero gives the largest value in both parts. -/
theorem C58_in_table (q : QMode) (f fm fc fmc out : Fmt) (a b : ℚ) :
    ∃ p, Model.Complex.inverseSqrt q f fm fc fmc out a b = some p ∧ (a = 0 → b = 0 → p = (out.maxVal, out.maxVal)) := by
  unfold Model.Complex.inverseSqrt
  obtain ⟨s, hs⟩ := Option.isSome_iff_exists.1 (ComplexSqrt.C57_in_table q fc fmc (Model.Complex.conjFmt q f) (fc.cvt a) (fc.cvt (-b)))
  obtain ⟨v, hv⟩ := Option.isSome_iff_exists.1 (IsqrtPwl.C31_in_table q true fm (Model.Complex.invFmt q f)
    (Model.Complex.magSqr fm a b))
  rw [hs]
  simp only [Option.bind_eq_bind, Option.bind_some]
  rw [hv]
  simp only [Option.bind_some]
  by_cases h : a ≠ 0 ∨ b ≠ 0
  · rw [if_pos h]
    exact ⟨_, rfl, fun h1 h2 => by rcases h with h | h <;> contradiction⟩
  · rw [if_neg h]
    exact ⟨_, rfl, fun _ _ => rfl⟩

/-- **C58**, the result. With `M = √(a² + b²)` the inverse of the root of `a + bi` is `X ± iY` with `X² = (M + a)/(2M²)`,
`Y² = (M - a)/(2M²)`; the imaginary part is negative if `b` is positive or the input is a negative real number. The parts of
the output are the conversions of `x` and `±y`, with squares within `1/(220M)` of those. No intermediate type loses a bit. -/
theorem C58_inverse_sqrt (q : QMode) {f fm fc fmc out : Fmt} (hW : 1 ≤ f.W) (hS : f.S = true) (hI : -26 ≤ f.I)
    {a b : ℚ} (ha : f.Rep a) (hb : f.Rep b) (hz : a ≠ 0 ∨ b ≠ 0) (h : Holds f fm a b)
    (hWc : 1 ≤ fc.W) (hSc : fc.S = true) (hOc : fc.O ≠ .SAT_SYM) (hIc : -26 ≤ fc.I) (hac : fc.Rep a) (hbc : fc.Rep (-b))
    (hc : Holds fc fmc a (-b)) {M : ℝ} (hM : M = Real.sqrt ((a : ℝ) ^ 2 + (b : ℝ) ^ 2)) :
    ∃ x y : ℚ, Model.Complex.inverseSqrt q f fm fc fmc out a b =
        some (out.cvt x, out.cvt (if 0 < b ∨ a < 0 ∧ b = 0 then -y else y)) ∧ 0 ≤ x ∧ 0 ≤ y ∧
      |(x : ℝ) ^ 2 - (M + a) / 2 / M ^ 2| ≤ 1 / (220 * M) ∧ |(y : ℝ) ^ 2 - (M - a) / 2 / M ^ 2| ≤ 1 / (220 * M) :=
  Proof.ComplexIsqrt.inverseSqrt_eq q hW hS hI ha hb hz h.W h.S h.O (Proof.Complex.m_rep h.W h.F h.S ha hb h.I) hWc hSc hOc hIc
    hac hbc hc.W hc.S hc.O (Proof.Complex.m_rep hc.W hc.F hc.S hac hbc hc.I) hM

example : Holds ⟨8, 4, true, .TRN, .WRAP⟩ ⟨15, 7, false, .TRN, .WRAP⟩ 3 4 ∧
    Holds ⟨9, 5, true, .TRN, .WRAP⟩ ⟨17, 9, false, .TRN, .WRAP⟩ 3 (-4) ∧
    (⟨9, 5, true, .TRN, .WRAP⟩ : Fmt).Rep (-4) ∧
    Model.Complex.inverseSqrt .TRN ⟨8, 4, true, .TRN, .WRAP⟩ ⟨15, 7, false, .TRN, .WRAP⟩ ⟨9, 5, true, .TRN, .WRAP⟩
      ⟨17, 9, false, .TRN, .WRAP⟩ ⟨20, 6, true, .TRN, .SAT⟩ 3 4 = some (1639 / 4096, -3279 / 16384) := by
  refine ⟨?_, ?_, ⟨-64, by decide, by decide, by decide +kernel⟩, by decide +kernel⟩
  · constructor <;> first | decide | (simp only []; norm_num)
  · constructor <;> first | decide | (simp only []; norm_num)

/-- **C58**, the negative real axis: the inverse root of -4 is `-i/2`. -/
example : Model.Complex.inverseSqrt .TRN ⟨8, 4, true, .TRN, .WRAP⟩ ⟨15, 7, false, .TRN, .WRAP⟩ ⟨9, 5, true, .TRN, .WRAP⟩
      ⟨17, 9, false, .TRN, .WRAP⟩ ⟨20, 6, true, .TRN, .SAT⟩ (-4) 0 = some (91 / 8192, -8197 / 16384) := by decide +kernel

end Props.ComplexIsqrt
