import Verif.Props.ComplexRec
import Verif.Props.DivLaws

/-! # C101: laws of the functions of complex numbers

A complex number is the pair of its parts `a`, `b`; `fm` is the type of the sum of their squares. Theorems about outputs hold
bit for bit. `none` would be a read outside a table, which does not happen (C56, C57). -/

namespace Props.ComplexLaws
open Ac Model.Complex Props.ComplexRec

theorem magSqr_neg_left (fm : Fmt) (a b : ℚ) : magSqr fm (-a) b = magSqr fm a b := by unfold magSqr; rw [neg_mul_neg]
theorem magSqr_neg_right (fm : Fmt) (a b : ℚ) : magSqr fm a (-b) = magSqr fm a b := by unfold magSqr; rw [neg_mul_neg]
theorem magSqr_swap (fm : Fmt) (a b : ℚ) : magSqr fm b a = magSqr fm a b := by unfold magSqr; rw [add_comm]

/-- **C101**, absolute value: numbers that differ by the signs or the order of their parts have the same one. -/
theorem C101_abs (q : QMode) (fm out : Fmt) (a b : ℚ) :
    Model.Complex.abs q fm out (-a) b = Model.Complex.abs q fm out a b ∧ Model.Complex.abs q fm out a (-b) = Model.Complex.abs q fm out a b ∧
    Model.Complex.abs q fm out b a = Model.Complex.abs q fm out a b := by
  unfold Model.Complex.abs
  exact ⟨by rw [magSqr_neg_left], by rw [magSqr_neg_right], by rw [magSqr_swap]⟩

/-- **C101**, order: the number with the larger absolute value has no smaller result, in types that saturate. -/
theorem C101_abs_order (q : QMode) {f fm out : Fmt} (ho : 1 ≤ out.W) (hSo : out.S = false) (hO : out.O = .SAT ∨ out.O = .SAT_SYM)
    {a b a' b' : ℚ} (ha : f.Rep a) (hb : f.Rep b) (ha' : f.Rep a') (hb' : f.Rep b') (h : Holds f fm a b) (h' : Holds f fm a' b')
    (hle : a ^ 2 + b ^ 2 ≤ a' ^ 2 + b' ^ 2) :
    ∃ y y', Model.Complex.abs q fm out a b = some y ∧ Model.Complex.abs q fm out a' b' = some y' ∧ y ≤ y' := by
  have r := Proof.Complex.m_rep h.W h.F h.S ha hb h.I
  have r' := Proof.Complex.m_rep h'.W h'.F h'.S ha' hb' h'.I
  unfold Model.Complex.abs
  rw [Proof.Complex.magSqr_eq h.W h.O r, Proof.Complex.magSqr_eq h'.W h'.O r']
  exact SqrtPwl.C30_output_mono q h.W h.S ho hSo hO r r' hle

/-- |3 + 4i|, |-4 + 3i| and |5 + 4i| in `ac_fixed<8,4,true>`. -/
example : let fm : Fmt := ⟨15, 7, false, .TRN, .WRAP⟩; let out : Fmt := ⟨10, 4, false, .RND, .SAT⟩
    Model.Complex.abs .TRN fm out 3 4 = Model.Complex.abs .TRN fm out (-4) 3 ∧ Model.Complex.abs .TRN fm out 3 4 = some 5 ∧
    Model.Complex.abs .TRN fm out 5 4 = some (410 / 64) := by
  decide +kernel

/-- The reciprocal functions. -/
inductive IsRec : (QMode → Fmt → Fmt → Fmt → ℚ → ℚ → Option (ℚ × ℚ)) → Prop
  | pwl : IsRec reciprocal
  | ha : IsRec reciprocalHa
  | vha : IsRec reciprocalVha

/-- Each multiplies the conjugate by a number that depends on the sum of the squares of the parts. -/
theorem rec_form {R : QMode → Fmt → Fmt → Fmt → ℚ → ℚ → Option (ℚ × ℚ)} (hR : IsRec R) (q : QMode) (f fm out : Fmt) :
    ∃ g : ℚ → ℚ, ∀ a b, R q f fm out a b = some (scaleConj out a b (g (magSqr fm a b))) := by
  cases hR with
  | pwl =>
    have h := fun x => Option.isSome_iff_exists.1 (Reciprocal.C29_in_table q fm (recFmt 4 10 f out) x)
    choose g hg using h
    exact ⟨g, fun a b => by unfold reciprocal; rw [hg]; rfl⟩
  | ha =>
    have h := fun x => (ReciprocalHa.C41_in_table q true fm (recFmt 6 16 f out) x).1
    choose g hg using h
    exact ⟨g, fun a b => by unfold reciprocalHa; rw [(hg _).1]; rfl⟩
  | vha =>
    have h := fun x => (ReciprocalHa.C41_in_table q true fm (recFmtVha 7 16 f out) x).2
    choose g hg using h
    exact ⟨g, fun a b => by unfold reciprocalVha; rw [(hg _).1]; rfl⟩

/-- **C101**, reciprocals of conjugates and opposites: the reciprocal of the conjugate has the same real part; its imaginary
part is that of the reciprocal of the opposite. A quarter turn of the number turns the imaginary part into the real part. -/
theorem C101_reciprocal {R : QMode → Fmt → Fmt → Fmt → ℚ → ℚ → Option (ℚ × ℚ)} (hR : IsRec R) (q : QMode) (f fm out : Fmt) (a b : ℚ) :
    ∃ z zc zo zt, R q f fm out a b = some z ∧ R q f fm out a (-b) = some zc ∧ R q f fm out (-a) (-b) = some zo ∧
      R q f fm out (-b) a = some zt ∧ zc.1 = z.1 ∧ zc.2 = zo.2 ∧ zt.1 = z.2 := by
  obtain ⟨g, hg⟩ := rec_form hR q f fm out
  refine ⟨_, _, _, _, hg _ _, hg _ _, hg _ _, hg _ _, ?_⟩
  rw [magSqr_neg_right, magSqr_neg_left, magSqr_neg_right, magSqr_neg_left, magSqr_swap]
  unfold scaleConj
  by_cases h : a ≠ 0 ∨ b ≠ 0
  · have h1 : a ≠ 0 ∨ -b ≠ 0 := h.imp id neg_ne_zero.2
    have h2 : -a ≠ 0 ∨ -b ≠ 0 := h.imp neg_ne_zero.2 neg_ne_zero.2
    have h3 : -b ≠ 0 ∨ a ≠ 0 := h1.symm
    rw [if_pos h, if_pos h1, if_pos h2, if_pos h3]
    exact ⟨rfl, rfl, rfl⟩
  · push Not at h
    obtain ⟨rfl, rfl⟩ := h
    simp

/-- **C101**, with a rounding mode that treats both signs alike and symmetric saturation the reciprocal of the conjugate is the
conjugate of the reciprocal, and that of the opposite its opposite, unless the number is zero. -/
theorem C101_reciprocal_sign {R : QMode → Fmt → Fmt → Fmt → ℚ → ℚ → Option (ℚ × ℚ)} (hR : IsRec R) (q : QMode) (f fm : Fmt) {out : Fmt}
    (ho : 1 ≤ out.W) (hS : out.S = true) (hQ : out.Q ∈ [QMode.RND_ZERO, .RND_INF, .RND_CONV, .RND_CONV_ODD, .TRN_ZERO])
    (hO : out.O = .SAT_SYM) {a b : ℚ} (h : a ≠ 0 ∨ b ≠ 0) :
    ∃ z, R q f fm out a b = some z ∧ R q f fm out a (-b) = some (z.1, -z.2) ∧ R q f fm out (-a) (-b) = some (-z.1, -z.2) := by
  obtain ⟨g, hg⟩ := rec_form hR q f fm out
  refine ⟨_, hg _ _, ?_, ?_⟩
  · rw [hg, magSqr_neg_right]
    unfold scaleConj
    rw [if_pos h, if_pos (h.imp id neg_ne_zero.2)]
    simp only [neg_mul, neg_neg, DivLaws.cvt_neg ho hS hQ (Or.inl hO)]
  · rw [hg, magSqr_neg_left, magSqr_neg_right]
    unfold scaleConj
    rw [if_pos h, if_pos (h.imp neg_ne_zero.2 neg_ne_zero.2)]
    simp only [neg_mul, neg_neg, DivLaws.cvt_neg ho hS hQ (Or.inl hO)]

/-- The reciprocals of 3 + 4i, of its conjugate and its opposite, truncated (first line) and rounded. -/
example : let f : Fmt := ⟨8, 4, true, .TRN, .WRAP⟩; let fm : Fmt := ⟨15, 7, false, .TRN, .WRAP⟩
    let o : Fmt := ⟨12, 4, true, .TRN, .SAT⟩; let o' : Fmt := ⟨12, 4, true, .RND_CONV, .SAT_SYM⟩
    reciprocal .TRN f fm o 3 4 = some (30 / 256, -41 / 256) ∧ reciprocal .TRN f fm o 3 (-4) = some (30 / 256, 40 / 256) ∧
    reciprocal .TRN f fm o (-3) (-4) = some (-31 / 256, 40 / 256) ∧
    reciprocal .TRN f fm o' 3 4 = some (31 / 256, -41 / 256) ∧ reciprocal .TRN f fm o' 3 (-4) = some (31 / 256, 41 / 256) := by
  decide +kernel

/-- **C101**, square roots: the root of the conjugate has the same real part. For a number with nonnegative imaginary part, changing
the sign of its real part swaps the parts of the root. -/
theorem C101_sqrt (q : QMode) (f fm out : Fmt) (a b : ℚ) :
    (Model.Complex.sqrt q f fm out a (-b)).map Prod.fst = (Model.Complex.sqrt q f fm out a b).map Prod.fst ∧
    (0 ≤ b → Model.Complex.sqrt q f fm out (-a) b = (Model.Complex.sqrt q f fm out a b).map Prod.swap) := by
  have tab : ∀ f o x, ∃ y, Model.PwlFixed.sqrt q true f o x = some y := fun f o x =>
    Option.isSome_iff_exists.1 (SqrtPwl.C30_in_table q true f o x)
  obtain ⟨m, hm⟩ := tab fm (modFmt f) (magSqr fm a b)
  unfold Model.Complex.sqrt
  rw [magSqr_neg_left, magSqr_neg_right, hm]
  obtain ⟨x, hx⟩ := tab (sqFmt f) (xyFmt f) ((sqFmt f).cvt ((tFmt' f).shr ((tFmt' f).cvt ((tFmt f).cvt (m + a))) 1))
  obtain ⟨y, hy⟩ := tab (sqFmt f) (xyFmt f) ((sqFmt f).cvt ((tFmt' f).shr ((tFmt' f).cvt ((tFmt f).cvt (m - a))) 1))
  refine ⟨?_, fun hb => ?_⟩
  · simp only [Option.bind_eq_bind, Option.bind_some, hx, hy, Option.map_some]
  · simp only [Option.bind_eq_bind, Option.bind_some, sub_neg_eq_add, ← sub_eq_add_neg, hx, hy, Option.map_some, Prod.swap, not_lt.2 hb, if_false]

/-- The roots of 3 + 4i, 3 - 4i and -3 + 4i. -/
example : let f : Fmt := ⟨8, 4, true, .TRN, .WRAP⟩; let fm : Fmt := ⟨15, 7, false, .TRN, .WRAP⟩; let o : Fmt := ⟨12, 4, true, .RND, .SAT⟩
    Model.Complex.sqrt .TRN f fm o 3 4 = some (2, 1) ∧ Model.Complex.sqrt .TRN f fm o 3 (-4) = some (2, -1) ∧
    Model.Complex.sqrt .TRN f fm o (-3) 4 = some (1, 2) := by
  decide +kernel

end Props.ComplexLaws
