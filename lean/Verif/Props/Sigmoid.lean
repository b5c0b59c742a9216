import Verif.Proof.SigmoidErr

/-! # C32: PWL sigmoid

`sigmoidPwl q f x` is the value that `ac_sigmoid_pwl<q>` computes for the input `x` of type `f` and assigns to the
output, `none` for a table read out of bounds; `sigmoid q f out x` is the output itself, of type `out`. -/

namespace Props.Sigmoid
open Ac Model.Pwl Spec

/-- **C32**, table safety: no input, in no format, makes the function read outside its tables. -/
theorem C32_in_table (q : QMode) (f : Fmt) (x : ℚ) : (sigmoidPwl q f x).isSome := by
  have hi := Proof.Pwl.index_lt 3 (sigSc (magnitude f x))
  unfold sigmoidPwl
  simp [Proof.Pwl.rd_lt (t := sigM) (by simpa [sigM] using hi), Proof.Pwl.rd_lt (t := sigC) (by simpa [sigC] using hi)]

example : sigmoidPwl .TRN ⟨8, 4, true, .TRN, .WRAP⟩ (-3 / 2) = some (48449 / 262144) := by decide +kernel

/-- **C32**, symmetry, for every nonzero input whose negative is representable too. Missing: the input 0, where it is
false, see `C32_symmetry_zero_wrong`. -/
theorem C32_symmetry_partial (q : QMode) {f : Fmt} (hW : 1 ≤ f.W) {x : ℚ} (hx : f.Rep x) (hn : f.Rep (-x)) (h0 : x ≠ 0) :
    ∃ y, sigmoidPwl q f x = some y ∧ sigmoidPwl q f (-x) = some (1 - y) := by
  refine ⟨_, Proof.Sigmoid.sigmoidPwl_eq q hW hx, ?_⟩
  rw [Proof.Sigmoid.sigmoidPwl_eq q hW hn, abs_neg]
  congr 1
  rcases lt_or_gt_of_ne h0 with h | h
  · rw [if_neg (show ¬ -x < 0 by linarith), if_pos h]; ring
  · rw [if_pos (show -x < 0 by linarith), if_neg h.not_gt]

example : (⟨8, 4, true, .TRN, .WRAP⟩ : Fmt).Rep (3 / 2) ∧ (⟨8, 4, true, .TRN, .WRAP⟩ : Fmt).Rep (-(3 / 2)) :=
  ⟨⟨24, by decide, by decide, by decide +kernel⟩, ⟨-24, by decide, by decide, by decide +kernel⟩⟩

/-- The symmetry is false at 0: the result is 513/1024 in every format, not 1/2. -/
theorem C32_symmetry_zero_wrong (q : QMode) {f : Fmt} (hW : 1 ≤ f.W) :
    ∃ y, sigmoidPwl q f 0 = some y ∧ sigmoidPwl q f (-0) ≠ some (1 - y) := by
  have hx : f.Rep 0 := ⟨0, minRaw_nonpos _ _, maxRaw_nonneg _ _, by simp [Fmt.val]⟩
  have e := Proof.Sigmoid.sigmoidPwl_eq q hW hx
  rw [abs_zero, if_neg (lt_irrefl _), show Proof.Sigmoid.mag 0 = 513 / 1024 by decide +kernel] at e
  refine ⟨_, e, ?_⟩
  rw [neg_zero, e]
  norm_num

example : sigmoidPwl .TRN ⟨8, 4, true, .TRN, .WRAP⟩ 0 = some (513 / 1024) := by decide +kernel

/-- **C32**, range: the value is strictly between 0 and 1. -/
theorem C32_range (q : QMode) {f : Fmt} (hW : 1 ≤ f.W) {x : ℚ} (hx : f.Rep x) :
    ∃ y, sigmoidPwl q f x = some y ∧ 0 < y ∧ y < 1 := by
  refine ⟨_, Proof.Sigmoid.sigmoidPwl_eq q hW hx, ?_⟩
  obtain ⟨k, k0, k1, hk⟩ := Proof.Sigmoid.mag_raw (abs_nonneg x)
  have h1 : (0 : ℚ) < k / 2 ^ 20 := div_pos (by exact_mod_cast (by omega : 0 < k)) (by norm_num)
  have h2 : (k : ℚ) / 2 ^ 20 < 1 := by rw [div_lt_one (by norm_num)]; exact_mod_cast k1
  rw [hk]
  split_ifs <;> constructor <;> linarith

/-- **C32**, monotonicity. -/
theorem C32_mono (q : QMode) {f : Fmt} (hW : 1 ≤ f.W) {x x' : ℚ} (hx : f.Rep x) (hx' : f.Rep x') (h : x ≤ x') :
    ∃ y y', sigmoidPwl q f x = some y ∧ sigmoidPwl q f x' = some y' ∧ y ≤ y' := by
  refine ⟨_, _, Proof.Sigmoid.sigmoidPwl_eq q hW hx, Proof.Sigmoid.sigmoidPwl_eq q hW hx', ?_⟩
  split_ifs with h1 h2 h2
  · have := Proof.Sigmoid.mag_mono (abs_nonneg x') (show |x'| ≤ |x| by rw [abs_of_neg h1, abs_of_neg h2]; linarith)
    linarith
  · have e : ∀ z : ℚ, 1 / 2 ≤ Proof.Sigmoid.mag |z| := by
      intro z
      obtain ⟨k, k0, k1, hk⟩ := Proof.Sigmoid.mag_raw (abs_nonneg z)
      rw [hk, div_le_div_iff₀ (by norm_num) (by norm_num)]
      have : ((513 * 1024 : ℤ) : ℚ) ≤ k := by exact_mod_cast k0
      push_cast at this; linarith
    have := e x
    have := e x'
    linarith
  · linarith
  · exact Proof.Sigmoid.mag_mono (abs_nonneg x) (by rw [abs_of_nonneg (by linarith), abs_of_nonneg (by linarith)]; exact h)

/-- Different magnitudes do give different values, so monotonicity is not vacuous. -/
example : sigmoidPwl .RND ⟨16, 4, true, .TRN, .WRAP⟩ (-1) = some (71181 / 262144) ∧
    sigmoidPwl .RND ⟨16, 4, true, .TRN, .WRAP⟩ 2 = some (115399 / 131072) := by decide +kernel

/-- **C32**, saturation: from 5 on the value is the largest one, 1 - 2^-20, and from -5 down the smallest, 2^-20. -/
theorem C32_saturate (q : QMode) {f : Fmt} (hW : 1 ≤ f.W) {x : ℚ} (hx : f.Rep x) :
    (5 ≤ x → sigmoidPwl q f x = some (1 - 1 / 2 ^ 20)) ∧ (x ≤ -5 → sigmoidPwl q f x = some (1 / 2 ^ 20)) := by
  constructor <;> intro h <;> rw [Proof.Sigmoid.sigmoidPwl_eq q hW hx]
  · rw [if_neg (by linarith), abs_of_nonneg (by linarith)]
    unfold Proof.Sigmoid.mag
    rw [if_pos h]
  · rw [if_pos (by linarith), abs_of_neg (by linarith)]
    unfold Proof.Sigmoid.mag
    rw [if_pos (by linarith)]
    congr 1; ring

example : sigmoidPwl .TRN ⟨8, 8, true, .TRN, .WRAP⟩ (-128) = some (1 / 2 ^ 20) := by decide +kernel

/-- **C32**, accuracy: the value is within 7/1000 of the logistic function, and within 1/256 on (-5, 5). -/
theorem C32_error (q : QMode) {f : Fmt} (hW : 1 ≤ f.W) {x : ℚ} (hx : f.Rep x) :
    ∃ y, sigmoidPwl q f x = some y ∧ |(y : ℝ) - logistic x| ≤ 7 / 1000 ∧ (|x| < 5 → |(y : ℝ) - logistic x| ≤ 1 / 256) := by
  have key : ∀ ε : ℝ, |((Proof.Sigmoid.mag |x| : ℚ) : ℝ) - logistic ((|x| : ℚ) : ℝ)| ≤ ε →
      |((if x < 0 then 1 - Proof.Sigmoid.mag |x| else Proof.Sigmoid.mag |x| : ℚ) : ℝ) - logistic x| ≤ ε := by
    intro ε h
    split_ifs with hx0
    · rw [abs_of_neg hx0] at h ⊢
      push_cast at h ⊢
      rw [Proof.Sigmoid.logistic_neg] at h
      rw [show (1 : ℝ) - (Proof.Sigmoid.mag (-x) : ℝ) - logistic x = -((Proof.Sigmoid.mag (-x) : ℝ) - (1 - logistic x)) by ring,
        abs_neg]
      exact h
    · rw [abs_of_nonneg (not_lt.1 hx0)] at h ⊢
      exact h
  refine ⟨_, Proof.Sigmoid.sigmoidPwl_eq q hW hx, key _ (Proof.Sigmoid.mag_err (abs_nonneg x)), fun h => key _ ?_⟩
  unfold Proof.Sigmoid.mag
  rw [if_neg (by linarith)]
  exact Proof.Sigmoid.seg_err (abs_nonneg x) h

/-- **C32** for the output: a saturating output type keeps the function nondecreasing. -/
theorem C32_output_mono (q : QMode) {f out : Fmt} (hW : 1 ≤ f.W) (hO : out.O = .SAT ∨ out.O = .SAT_SYM) {x x' : ℚ}
    (hx : f.Rep x) (hx' : f.Rep x') (h : x ≤ x') :
    ∃ y y', sigmoid q f out x = some y ∧ sigmoid q f out x' = some y' ∧ y ≤ y' := by
  obtain ⟨y, y', e, e', hy⟩ := C32_mono q hW hx hx' h
  exact ⟨out.cvt y, out.cvt y', by simp [sigmoid, e], by simp [sigmoid, e'], Fmt.cvt_mono hO hy⟩

example : sigmoid .TRN ⟨8, 4, true, .TRN, .WRAP⟩ ⟨8, 0, false, .RND, .SAT⟩ 6 = some (255 / 256) := by decide +kernel

/-- A wrapping output type that rounds does not: with `ac_fixed<8,0,false,AC_RND>` the result for 6 is 0. -/
theorem C32_output_wrap_wrong : sigmoid .TRN ⟨8, 4, true, .TRN, .WRAP⟩ ⟨8, 0, false, .RND, .WRAP⟩ 6 = some 0 := by
  decide +kernel

end Props.Sigmoid
