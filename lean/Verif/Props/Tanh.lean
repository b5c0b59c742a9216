import Verif.Proof.TanhErr

/-! # C33: PWL tanh

`tanhPwl oob q f x` is the value that `ac_tanh_pwl<q>` computes for the input `x` of type `f` and assigns to the output.
`oob i` is what reading the 12-entry tables at an index `i` of 12 or more gives: `none` for undefined behaviour.  The
theorems about values hold for the arbitrary bits `g i` of any implementation. -/

namespace Props.Tanh
open Ac Model.Pwl

/-- **C33**, table safety, for inputs of magnitude below 3. Missing: larger inputs, where it is false, see
`C33_table_wrong`. -/
theorem C33_table_partial (q : QMode) {f : Fmt} (hW : 1 ≤ f.W) {x : ℚ} (hx : f.Rep x) (h : |x| < 3) :
    (tanhPwl (fun _ => none) q f x).isSome := by
  rw [Proof.Tanh.tanhPwl_in _ q hW hx h]; rfl

example : tanhPwl (fun _ => none) .TRN ⟨8, 4, true, .TRN, .WRAP⟩ (-3 / 2) = some (-928 / 1024) := by decide +kernel

/-- Every input of magnitude 3 or more but below 4 reads outside the tables: undefined behaviour in C++. -/
theorem C33_table_wrong (q : QMode) {f : Fmt} (hW : 1 ≤ f.W) {x : ℚ} (hx : f.Rep x) (h3 : 3 ≤ |x|) (h4 : |x| < 4) :
    tanhPwl (fun _ => none) q f x = none := Proof.Tanh.tanhPwl_oob q hW hx h3 h4

example : tanhPwl (fun _ => none) .TRN ⟨8, 4, true, .TRN, .WRAP⟩ 3 = none ∧
    (⟨8, 4, true, .TRN, .WRAP⟩ : Fmt).Rep 3 := ⟨by decide +kernel, ⟨48, by decide, by decide, by decide +kernel⟩⟩

/-- **C33**, the value read outside the tables is discarded: two implementations agree on every input. -/
theorem C33_discarded (g g' : ℕ → ℤ × ℤ) (q : QMode) {f : Fmt} (hW : 1 ≤ f.W) {x : ℚ} (hx : f.Rep x) :
    tanhPwl (fun i => some (g i)) q f x = tanhPwl (fun i => some (g' i)) q f x := by
  rw [Proof.Tanh.tanhPwl_some g q hW hx, Proof.Tanh.tanhPwl_some g' q hW hx]

/-- **C33**, odd, for every nonzero input whose negative is representable too. Missing: the input 0, where it is false,
see `C33_odd_zero_wrong`. -/
theorem C33_odd_partial (g : ℕ → ℤ × ℤ) (q : QMode) {f : Fmt} (hW : 1 ≤ f.W) {x : ℚ} (hx : f.Rep x) (hn : f.Rep (-x))
    (h0 : x ≠ 0) :
    ∃ y, tanhPwl (fun i => some (g i)) q f x = some y ∧ tanhPwl (fun i => some (g i)) q f (-x) = some (-y) := by
  refine ⟨_, Proof.Tanh.tanhPwl_some g q hW hx, ?_⟩
  rw [Proof.Tanh.tanhPwl_some g q hW hn, abs_neg]
  congr 1
  rcases lt_or_gt_of_ne h0 with h | h
  · rw [if_neg (show ¬ -x < 0 by linarith), if_pos h]; ring
  · rw [if_pos (show -x < 0 by linarith), if_neg h.not_gt]

example : (⟨8, 4, true, .TRN, .WRAP⟩ : Fmt).Rep (7 / 2) ∧ (⟨8, 4, true, .TRN, .WRAP⟩ : Fmt).Rep (-(7 / 2)) :=
  ⟨⟨56, by decide, by decide, by decide +kernel⟩, ⟨-56, by decide, by decide, by decide +kernel⟩⟩

/-- The function is not odd at 0: the result is 1/1024 in every format, not 0. -/
theorem C33_odd_zero_wrong (q : QMode) {f : Fmt} (hW : 1 ≤ f.W) :
    ∃ y, tanhPwl (fun _ => none) q f 0 = some y ∧ tanhPwl (fun _ => none) q f (-0) ≠ some (-y) := by
  have hx : f.Rep 0 := ⟨0, minRaw_nonpos _ _, maxRaw_nonneg _ _, by simp [Fmt.val]⟩
  have e := Proof.Tanh.tanhPwl_in (fun _ => none) q hW hx (by norm_num)
  rw [abs_zero, if_neg (lt_irrefl _), show Proof.Tanh.mag 0 = 1 / 1024 by decide +kernel] at e
  refine ⟨_, e, ?_⟩
  rw [neg_zero, e]
  norm_num

example : tanhPwl (fun _ => none) .TRN ⟨8, 4, true, .TRN, .WRAP⟩ 0 = some (1 / 1024) := by decide +kernel

/-- **C33**, range: strictly between -1 and 1, and with the sign of the input. -/
theorem C33_range (g : ℕ → ℤ × ℤ) (q : QMode) {f : Fmt} (hW : 1 ≤ f.W) {x : ℚ} (hx : f.Rep x) :
    ∃ y, tanhPwl (fun i => some (g i)) q f x = some y ∧ -1 < y ∧ y < 1 ∧ (y < 0 ↔ x < 0) := by
  refine ⟨_, Proof.Tanh.tanhPwl_some g q hW hx, ?_⟩
  obtain ⟨k, k0, k1, hk⟩ := Proof.Tanh.mag_raw (abs_nonneg x)
  have h1 : (0 : ℚ) < k / 2 ^ 20 := div_pos (by exact_mod_cast (by omega : 0 < k)) (by norm_num)
  have h2 : (k : ℚ) / 2 ^ 20 < 1 := by rw [div_lt_one (by norm_num)]; exact_mod_cast k1
  rw [hk]
  split_ifs with h
  · exact ⟨by linarith, by linarith, by constructor <;> intro _ <;> linarith⟩
  · exact ⟨by linarith, by linarith, by constructor <;> intro _ <;> linarith⟩

/-- **C33**, monotonicity. -/
theorem C33_mono (g : ℕ → ℤ × ℤ) (q : QMode) {f : Fmt} (hW : 1 ≤ f.W) {x x' : ℚ} (hx : f.Rep x) (hx' : f.Rep x')
    (h : x ≤ x') : ∃ y y', tanhPwl (fun i => some (g i)) q f x = some y ∧ tanhPwl (fun i => some (g i)) q f x' = some y' ∧
    y ≤ y' := by
  have e : ∀ z : ℚ, 0 ≤ Proof.Tanh.mag |z| := by
    intro z
    obtain ⟨k, k0, k1, hk⟩ := Proof.Tanh.mag_raw (abs_nonneg z)
    rw [hk]
    exact div_nonneg (by exact_mod_cast (by omega : 0 ≤ k)) (by norm_num)
  refine ⟨_, _, Proof.Tanh.tanhPwl_some g q hW hx, Proof.Tanh.tanhPwl_some g q hW hx', ?_⟩
  split_ifs with h1 h2 h2
  · have := Proof.Tanh.mag_mono (abs_nonneg x') (show |x'| ≤ |x| by rw [abs_of_neg h1, abs_of_neg h2]; linarith)
    linarith
  · have := e x
    have := e x'
    linarith
  · linarith
  · exact Proof.Tanh.mag_mono (abs_nonneg x) (by rw [abs_of_nonneg (by linarith), abs_of_nonneg (by linarith)]; exact h)

example : tanhPwl (fun _ => none) .RND ⟨16, 4, true, .TRN, .WRAP⟩ (-1) = some (-783 / 1024) ∧
    tanhPwl (fun _ => none) .RND ⟨16, 4, true, .TRN, .WRAP⟩ 2 = some (988 / 1024) := by decide +kernel

/-- **C33**, saturation: from 3 on the value is 1 - 2^-20, and from -3 down its negative. -/
theorem C33_saturate (g : ℕ → ℤ × ℤ) (q : QMode) {f : Fmt} (hW : 1 ≤ f.W) {x : ℚ} (hx : f.Rep x) :
    (3 ≤ x → tanhPwl (fun i => some (g i)) q f x = some (1 - 1 / 2 ^ 20)) ∧
    (x ≤ -3 → tanhPwl (fun i => some (g i)) q f x = some (-(1 - 1 / 2 ^ 20))) := by
  constructor <;> intro h <;> rw [Proof.Tanh.tanhPwl_some g q hW hx]
  · rw [if_neg (by linarith), abs_of_nonneg (by linarith)]
    unfold Proof.Tanh.mag
    rw [if_pos h]
  · rw [if_pos (by linarith), abs_of_neg (by linarith)]
    unfold Proof.Tanh.mag
    rw [if_pos (by linarith)]

example : tanhPwl (fun _ => some (7, 9)) .TRN ⟨8, 8, true, .TRN, .WRAP⟩ (-128) = some (-(1 - 1 / 2 ^ 20)) := by decide +kernel

/-- **C33**, accuracy: the value is within 1/200 of the hyperbolic tangent. -/
theorem C33_error (g : ℕ → ℤ × ℤ) (q : QMode) {f : Fmt} (hW : 1 ≤ f.W) {x : ℚ} (hx : f.Rep x) :
    ∃ y, tanhPwl (fun i => some (g i)) q f x = some y ∧ |(y : ℝ) - Real.tanh x| ≤ 1 / 200 := by
  refine ⟨_, Proof.Tanh.tanhPwl_some g q hW hx, ?_⟩
  have h := Proof.Tanh.mag_err (abs_nonneg x)
  split_ifs with hx0
  · rw [abs_of_neg hx0] at h ⊢
    push_cast at h ⊢
    rw [Real.tanh_neg] at h
    rw [show -(Proof.Tanh.mag (-x) : ℝ) - Real.tanh x = -((Proof.Tanh.mag (-x) : ℝ) - -Real.tanh x) by ring, abs_neg]
    exact h
  · rw [abs_of_nonneg (not_lt.1 hx0)] at h ⊢
    exact h

/-- **C33** for the output: a saturating output type keeps the function nondecreasing. -/
theorem C33_output_mono (g : ℕ → ℤ × ℤ) (q : QMode) {f out : Fmt} (hW : 1 ≤ f.W) (hO : out.O = .SAT ∨ out.O = .SAT_SYM)
    {x x' : ℚ} (hx : f.Rep x) (hx' : f.Rep x') (h : x ≤ x') :
    ∃ y y', tanh (fun i => some (g i)) q f out x = some y ∧ tanh (fun i => some (g i)) q f out x' = some y' ∧ y ≤ y' := by
  obtain ⟨y, y', e, e', hy⟩ := C33_mono g q hW hx hx' h
  exact ⟨out.cvt y, out.cvt y', by simp [tanh, e], by simp [tanh, e'], Fmt.cvt_mono hO hy⟩

example : tanh (fun _ => none) .TRN ⟨8, 2, true, .TRN, .WRAP⟩ ⟨8, 1, true, .RND, .SAT⟩ (3 / 2) = some (116 / 128) := by
  decide +kernel

end Props.Tanh
