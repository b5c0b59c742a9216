import Verif.Proof.Reciprocal

/-! # C29: PWL reciprocal

`reciprocal q f out x` is the output of `ac_reciprocal_pwl<q>` for the input `x` of type `f` and an output of type `out`,
`none` for a table read out of bounds.  `out.cvt r` is the assignment of the exact number `r` to the output. -/

namespace Props.Reciprocal
open Ac Model.PwlFixed

/-- **C29**, table safety: no input, in no format, makes the function read outside its tables. -/
theorem C29_in_table (q : QMode) (f out : Fmt) (x : ℚ) : (reciprocal q f out x).isSome := by
  unfold reciprocal
  obtain ⟨y, hy⟩ := Proof.PwlFixed.segVal_isSome (m := recM) (c := recC) (ib := 3) rfl rfl 10
    (scBits 10 (f.W - 4 - (if f.S then 1 else 0)))
    (((Model.Normalize.normalize (Model.Pwl.uns f) ((Model.Pwl.uns f).raw (Model.Pwl.magnitude f x))).1 - 1 / 2) * 16)
  simp only [hy, Option.bind_eq_bind, Option.bind_some]
  split_ifs <;> rfl

example : reciprocal .TRN ⟨8, 4, true, .TRN, .WRAP⟩ ⟨12, 2, true, .TRN, .WRAP⟩ (-7 / 4) = some (-585 / 1024) := by
  decide +kernel

/-- **C29**, error, sign and order. For nonzero inputs the output is the conversion of a number `r` (`r'`) whose relative
error against the reciprocal is at most 1/512, which has the sign of the input, and is smaller for a larger positive
input. The sign requires a signed output: an unsigned output gets the reciprocal of the magnitude. -/
theorem C29_reciprocal (q : QMode) {f out : Fmt} (hW : 1 ≤ f.W) (ho : 1 ≤ out.W) {x x' : ℚ} (hx : f.Rep x)
    (hx' : f.Rep x') (h : x ≠ 0) (h' : x' ≠ 0) :
    ∃ r r' : ℚ, reciprocal q f out x = some (out.cvt r) ∧ reciprocal q f out x' = some (out.cvt r') ∧
    (out.S = true → |r * x - 1| ≤ 1 / 512 ∧ |r' * x' - 1| ≤ 1 / 512) ∧
    (out.S = false → |r * |x| - 1| ≤ 1 / 512 ∧ |r' * |x'| - 1| ≤ 1 / 512) ∧
    (0 < x → x ≤ x' → r' ≤ r) ∧ (x' = -x → out.S = true → r' = -r) := by
  refine ⟨_, _, Proof.Reciprocal.reciprocal_eq q hW ho hx h, Proof.Reciprocal.reciprocal_eq q hW ho hx' h', ?_, ?_, ?_, ?_⟩
  · intro hS
    have key : ∀ y : ℚ, f.Rep y → y ≠ 0 → |(if out.S = true ∧ y < 0 then -Proof.Reciprocal.core f |y| else
        Proof.Reciprocal.core f |y|) * y - 1| ≤ 1 / 512 := by
      intro y hy h0
      obtain ⟨c1, -⟩ := Proof.Reciprocal.core_pos hW hy h0
      by_cases hn : y < 0
      · rw [if_pos ⟨hS, hn⟩]
        rw [abs_of_neg hn] at c1 ⊢
        rwa [mul_neg, ← neg_mul] at c1
      · rw [if_neg (fun c => hn c.2)]
        rw [abs_of_nonneg (not_lt.1 hn)] at c1 ⊢
        exact c1
    exact ⟨key x hx h, key x' hx' h'⟩
  · intro hS
    simp only [hS, Bool.false_eq_true, false_and, if_false]
    exact ⟨(Proof.Reciprocal.core_pos hW hx h).1, (Proof.Reciprocal.core_pos hW hx' h').1⟩
  · intro h0 hle
    rw [if_neg (fun c => absurd c.2 (by linarith)), if_neg (fun c => absurd c.2 (by linarith))]
    exact Proof.Reciprocal.core_anti hW hx hx' h h' (by rw [abs_of_pos h0, abs_of_pos (by linarith)]; exact hle)
  · rintro rfl hS
    rw [abs_neg]
    rcases lt_or_gt_of_ne h with h1 | h1
    · rw [if_neg (fun c => absurd c.2 (by linarith)), if_pos ⟨hS, h1⟩, neg_neg]
    · rw [if_pos ⟨hS, by linarith⟩, if_neg (fun c => absurd c.2 (by linarith))]

example : (⟨8, 4, true, .TRN, .WRAP⟩ : Fmt).Rep (-7 / 4) ∧ (⟨8, 4, true, .TRN, .WRAP⟩ : Fmt).Rep (-8) :=
  ⟨⟨-28, by decide, by decide, by decide +kernel⟩, ⟨-128, by decide, by decide, by decide +kernel⟩⟩

/-- **C29**, the output itself: when the output type can hold `(1 + 1/512)/x`, a positive input gives the reciprocal with
an error below 1/512 of it plus one unit of the output. -/
theorem C29_output (q : QMode) {f out : Fmt} (hW : 1 ≤ f.W) (ho : 1 ≤ out.W) {x : ℚ} (hx : f.Rep x) (h : 0 < x)
    (hr : (1 + 1 / 512) / x ≤ out.maxVal) :
    ∃ y, reciprocal q f out x = some y ∧ |y - 1 / x| < 1 / 512 / x + 2 ^ (-out.F) := by
  refine ⟨_, Proof.Reciprocal.reciprocal_eq q hW ho hx h.ne', ?_⟩
  obtain ⟨c1, c2⟩ := Proof.Reciprocal.core_pos hW hx h.ne'
  rw [if_neg (fun c => absurd c.2 (by linarith))]
  rw [abs_of_pos h] at c1 c2 ⊢
  set r := Proof.Reciprocal.core f x
  obtain ⟨d1, d2⟩ := abs_le.1 c1
  have hrm : r ≤ (1 + 1 / 512) / x := by rw [le_div_iff₀ h]; linarith
  have hz := Fmt.z_pos out.F
  have hmax : r * 2 ^ out.F ≤ maxRaw out.W out.S := by
    have := mul_le_mul_of_nonneg_right (le_trans hrm hr) hz.le
    unfold Fmt.maxVal at this
    rwa [Fmt.val_mul_pow] at this
  have hlo : ((loRaw out.W out.S out.O : ℤ) : ℚ) ≤ r * 2 ^ out.F := by
    have : ((loRaw out.W out.S out.O : ℤ) : ℚ) ≤ 0 := by exact_mod_cast loRaw_nonpos _ _ _
    have : 0 ≤ r * 2 ^ out.F := by positivity
    linarith
  have e1 := Fmt.cvt_err ho hlo hmax
  have e2 : |r - 1 / x| ≤ 1 / 512 / x := by
    have : r - 1 / x = (r * x - 1) / x := by field_simp
    rw [this, abs_div, abs_of_pos h]
    exact div_le_div_of_nonneg_right c1 h.le
  calc |out.cvt r - 1 / x| = |(out.cvt r - r) + (r - 1 / x)| := by ring_nf
    _ ≤ |out.cvt r - r| + |r - 1 / x| := abs_add_le _ _
    _ < _ := by
      have : |out.cvt r - r| < 2 ^ (-out.F) := by simpa using e1
      linarith

example : (1 + 1 / 512) / (7 / 4 : ℚ) ≤ (⟨12, 2, false, .RND, .WRAP⟩ : Fmt).maxVal := by decide +kernel

/-- **C29**, zero input: the largest output. -/
theorem C29_zero (q : QMode) (f out : Fmt) : reciprocal q f out 0 = some out.maxVal := Proof.Reciprocal.reciprocal_zero q

example : (⟨12, 2, true, .TRN, .WRAP⟩ : Fmt).maxVal = 2047 / 1024 := by decide +kernel

/-- **C29**, a saturating output keeps the order of positive inputs, zero included: a larger input never gets a larger
output. -/
theorem C29_output_mono (q : QMode) {f out : Fmt} (hW : 1 ≤ f.W) (ho : 1 ≤ out.W) (hO : out.O = .SAT ∨ out.O = .SAT_SYM)
    {x x' : ℚ} (hx : f.Rep x) (hx' : f.Rep x') (h0 : 0 ≤ x) (h : x ≤ x') :
    ∃ y y', reciprocal q f out x = some y ∧ reciprocal q f out x' = some y' ∧ y' ≤ y := by
  rcases eq_or_lt_of_le h0 with h1 | h1
  · subst h1
    rcases eq_or_lt_of_le h with h2 | h2
    · subst h2
      exact ⟨_, _, C29_zero q f out, C29_zero q f out, le_rfl⟩
    · refine ⟨_, _, C29_zero q f out, Proof.Reciprocal.reciprocal_eq q hW ho hx' h2.ne', ?_⟩
      unfold Fmt.maxVal Fmt.cvt
      rw [Fmt.val_le]
      exact (ovf_range ho _ _).2
  · obtain ⟨r, r', e, e', -, -, hm, -⟩ := C29_reciprocal q hW ho hx hx' h1.ne' (by linarith : x' ≠ 0)
    exact ⟨_, _, e, e', Fmt.cvt_mono hO (hm h1 h)⟩

example : reciprocal .TRN ⟨8, 4, false, .TRN, .WRAP⟩ ⟨12, 2, false, .RND, .SAT⟩ (1 / 16) = some (4095 / 1024) := by
  decide +kernel

end Props.Reciprocal
