import Verif.Proof.LogPwl2

/-! # C34: PWL logarithms

`log2 q cn f out x` is the output of `ac_log2_pwl<q>` for the unsigned input `x` of type `f` and an output of type `out`,
`none` for a table read out of bounds; `cn` is the argument `call_normalize`. `log q f out x` is that of `ac_log_pwl<q>`.
`out.cvt r` is the assignment of the exact number `r` to the output. Without normalization the caller promises a leading
one in the top bit: `2 ^ (f.I - 1) ≤ x`. -/

namespace Props.LogPwl
open Ac Model.PwlFixed

/-- **C34**, table safety: no input, normalized or not, makes the functions read outside their tables. -/
theorem C34_in_table (q : QMode) (cn : Bool) (f out : Fmt) (x : ℚ) : (log2 q cn f out x).isSome ∧ (log q f out x).isSome := by
  obtain ⟨y, hy, -⟩ := Proof.LogPwl.log2_some q cn f out x
  obtain ⟨z, hz, -⟩ := Proof.LogPwl.log2_some q true f ⟨22 + logI f, logI f, true, q, .WRAP⟩ x
  refine ⟨by rw [hy]; rfl, ?_⟩
  unfold log
  rw [hz]; rfl

example : log2 .TRN true ⟨8, 4, false, .TRN, .WRAP⟩ ⟨12, 4, true, .TRN, .WRAP⟩ 3 = some (405 / 256) ∧
    log .TRN ⟨8, 4, false, .TRN, .WRAP⟩ ⟨12, 4, true, .TRN, .WRAP⟩ 3 = some (281 / 256) := by
  decide +kernel

/-- **C34**, zero: the smallest output. -/
theorem C34_zero (q : QMode) (cn : Bool) (f out : Fmt) : log2 q cn f out 0 = some out.minVal ∧ log q f out 0 = some out.minVal := by
  obtain ⟨y, hy, h0⟩ := Proof.LogPwl.log2_some q cn f out 0
  obtain ⟨z, hz, -⟩ := Proof.LogPwl.log2_some q true f ⟨22 + logI f, logI f, true, q, .WRAP⟩ 0
  refine ⟨by rw [hy, h0 rfl], ?_⟩
  unfold log
  rw [hz]; simp

example : (⟨12, 4, true, .TRN, .WRAP⟩ : Fmt).minVal = -8 := by decide +kernel

/-- **C34**, base 2: for positive inputs the output is the conversion of a number `r` within 1/600 of the real logarithm,
not smaller for a larger input. -/
theorem C34_log2 (q : QMode) (cn : Bool) {f out : Fmt} (hW : 1 ≤ f.W) (hS : f.S = false) {x x' : ℚ} (hx : f.Rep x)
    (hx' : f.Rep x') (h : 0 < x) (hxx : x ≤ x') (hc : cn = true ∨ 2 ^ (f.I - 1) ≤ x) :
    ∃ r r' : ℚ, log2 q cn f out x = some (out.cvt r) ∧ log2 q cn f out x' = some (out.cvt r') ∧
    |(r : ℝ) - Real.logb 2 x| ≤ 1 / 600 ∧ |(r' : ℝ) - Real.logb 2 x'| ≤ 1 / 600 ∧ r ≤ r' := by
  have hc' : cn = true ∨ 2 ^ (f.I - 1) ≤ x' := hc.imp_right (fun h => le_trans h hxx)
  have h' : 0 < x' := by linarith
  exact ⟨_, _, Proof.LogPwl.log2_eq q cn hW hS hx h hc, Proof.LogPwl.log2_eq q cn hW hS hx' h' hc',
    Proof.LogPwl.core_err hW hS hx h hc, Proof.LogPwl.core_err hW hS hx' h' hc', Proof.LogPwl.core_mono hW hS hx hx' h hc hxx⟩

example : (⟨8, 4, false, .TRN, .WRAP⟩ : Fmt).Rep (5 / 16) ∧ (⟨8, 4, false, .TRN, .WRAP⟩ : Fmt).Rep (8 + 1 / 16) :=
  ⟨⟨5, by decide, by decide, by decide +kernel⟩, ⟨129, by decide, by decide, by decide +kernel⟩⟩

/-- **C34**, shift: a shift of the input by `k` binary places, within its type or by a change of type, adds exactly `k` to the
number that is converted to the output. With `k = 0`: the type of the input does not matter. -/
theorem C34_shift (q : QMode) (cn cn' : Bool) {f f' out : Fmt} (hW : 1 ≤ f.W) (hW' : 1 ≤ f'.W) (hS : f.S = false)
    (hS' : f'.S = false) {x x' : ℚ} (hx : f.Rep x) (hx' : f'.Rep x') (h : 0 < x) (hc : cn = true ∨ 2 ^ (f.I - 1) ≤ x)
    (hc' : cn' = true ∨ 2 ^ (f'.I - 1) ≤ x') (k : ℤ) (hk : x' = x * 2 ^ k) :
    ∃ r : ℚ, log2 q cn f out x = some (out.cvt r) ∧ log2 q cn' f' out x' = some (out.cvt (r + k)) ∧
    |(r : ℝ) - Real.logb 2 x| ≤ 1 / 600 := by
  have h' : 0 < x' := by rw [hk]; exact mul_pos h (Fmt.z_pos k)
  refine ⟨_, Proof.LogPwl.log2_eq q cn hW hS hx h hc, ?_, Proof.LogPwl.core_err hW hS hx h hc⟩
  rw [Proof.LogPwl.log2_eq q cn' hW' hS' hx' h' hc', Proof.LogPwl.core_shift hW hW' hS hS' hx hx' h hc hc' hk]

example : (⟨8, 4, false, .TRN, .WRAP⟩ : Fmt).Rep (5 / 16) ∧ (⟨6, 6, false, .TRN, .WRAP⟩ : Fmt).Rep (5 / 16 * 2 ^ 5) :=
  ⟨⟨5, by decide, by decide, by decide +kernel⟩, ⟨10, by decide, by decide, by decide +kernel⟩⟩

/-- **C34**, natural logarithm: for positive inputs the output is the conversion of a number `r` within
1/800 + |ln x|/20000 of the real logarithm (the second term is the precision of the stored ln 2), not smaller for a larger
input. -/
theorem C34_ln (q : QMode) {f out : Fmt} (hW : 1 ≤ f.W) (hS : f.S = false) {x x' : ℚ} (hx : f.Rep x)
    (hx' : f.Rep x') (h : 0 < x) (hxx : x ≤ x') :
    ∃ r r' : ℚ, log q f out x = some (out.cvt r) ∧ log q f out x' = some (out.cvt r') ∧
    |(r : ℝ) - Real.log x| ≤ 1 / 800 + |Real.log x| / 20000 ∧ |(r' : ℝ) - Real.log x'| ≤ 1 / 800 + |Real.log x'| / 20000 ∧
    r ≤ r' := by
  have h' : 0 < x' := by linarith
  exact ⟨_, _, Proof.LogPwl.log_eq q hW hS hx h, Proof.LogPwl.log_eq q hW hS hx' h', Proof.LogPwl.ln_err hW hS hx h,
    Proof.LogPwl.ln_err hW hS hx' h', mul_le_mul_of_nonneg_right (Proof.LogPwl.core_mono hW hS hx hx' h (Or.inl rfl) hxx)
      (by rw [Proof.LogPwl.ln2_val]; norm_num)⟩

/-- **C34**, order of the outputs: a saturating output type keeps the order of all inputs, zero included. -/
theorem C34_output_mono (q : QMode) {f out : Fmt} (hW : 1 ≤ f.W) (hS : f.S = false) (ho : 1 ≤ out.W)
    (hO : out.O = .SAT ∨ out.O = .SAT_SYM) {x x' : ℚ} (hx : f.Rep x) (hx' : f.Rep x') (hxx : x ≤ x') :
    (∃ y y', log2 q true f out x = some y ∧ log2 q true f out x' = some y' ∧ y ≤ y') ∧
    (∃ y y', log q f out x = some y ∧ log q f out x' = some y' ∧ y ≤ y') := by
  have h0 : 0 ≤ x := by
    obtain ⟨r, r0, -, rfl⟩ := hx
    simp only [minRaw, hS] at r0
    unfold Fmt.val
    exact mul_nonneg (by exact_mod_cast r0) (Fmt.z_pos _).le
  rcases eq_or_lt_of_le h0 with h | h
  · subst h
    rcases eq_or_lt_of_le hxx with h' | h'
    · subst h'
      exact ⟨⟨_, _, (C34_zero q true f out).1, (C34_zero q true f out).1, le_rfl⟩,
        ⟨_, _, (C34_zero q true f out).2, (C34_zero q true f out).2, le_rfl⟩⟩
    · have hm : ∀ r : ℚ, out.minVal ≤ out.cvt r := by
        intro r
        unfold Fmt.minVal Fmt.cvt
        rw [Fmt.val_le]
        exact (ovf_range ho _ _).1
      obtain ⟨r, -, h1, -⟩ := C34_log2 q true (out := out) hW hS hx' hx' h' le_rfl (Or.inl rfl)
      obtain ⟨s, -, h2, -⟩ := C34_ln q (out := out) hW hS hx' hx' h' le_rfl
      exact ⟨⟨_, _, (C34_zero q true f out).1, h1, hm r⟩, ⟨_, _, (C34_zero q true f out).2, h2, hm s⟩⟩
  · obtain ⟨r, r', h1, h2, -, -, h3⟩ := C34_log2 q true (out := out) hW hS hx hx' h hxx (Or.inl rfl)
    obtain ⟨s, s', k1, k2, -, -, k3⟩ := C34_ln q (out := out) hW hS hx hx' h hxx
    exact ⟨⟨_, _, h1, h2, Fmt.cvt_mono hO h3⟩, ⟨_, _, k1, k2, Fmt.cvt_mono hO k3⟩⟩

example : log2 .TRN true ⟨8, 4, false, .TRN, .WRAP⟩ ⟨6, 2, true, .TRN, .SAT⟩ (1 / 16) = some (-2) := by decide +kernel

end Props.LogPwl
