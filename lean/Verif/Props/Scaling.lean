import Verif.Proof.Scaling
import Verif.Model.Atan

/-! # C85: results depend on the value of the argument, not on its type, and follow powers of two exactly

Each theorem says that there is one function `g` of the value of the argument such that the result is always `g x`,
converted to the output type. The function is the same for all input types, output types and, where `q` is inside the
statement, rounding modes. -/

namespace Props.Scaling
open Ac Model.Pwl Model.PwlFixed Model.PwlHa Model.Atan Proof.Scaling

/-- Integer, fractional and signed types used in the examples. -/
def e1 : Fmt := ⟨8, 8, false, .TRN, .WRAP⟩
@[inherit_doc e1] def e2 : Fmt := ⟨20, 10, true, .RND, .SAT⟩
@[inherit_doc e1] def eo : Fmt := ⟨40, 4, false, .TRN, .WRAP⟩
@[inherit_doc e1] def es : Fmt := ⟨40, 8, true, .TRN, .WRAP⟩

theorem rep1 : e1.Rep 12 := ⟨12, by decide, by decide, by decide +kernel⟩
theorem rep2 : e2.Rep 12 := ⟨12288, by decide, by decide, by decide +kernel⟩
theorem rep3 : e2.Rep (3 / 8) := ⟨384, by decide, by decide, by decide +kernel⟩

/-- **C85**, reciprocal: the value depends on the argument only, is odd, scales with powers of two, and is 2045/2048 at 1.
An unsigned output gets the reciprocal of the magnitude. -/
theorem C85_reciprocal : ∃ g : ℚ → ℚ,
    (∀ (q : QMode) (f out : Fmt) (x : ℚ), 1 ≤ f.W → 1 ≤ out.W → f.Rep x → x ≠ 0 →
      reciprocal q f out x = some (out.cvt (if out.S then g x else g |x|))) ∧
    (∀ x, x ≠ 0 → g (-x) = -g x) ∧ (∀ (x : ℚ) (k : ℤ), x ≠ 0 → g (2 ^ k * x) = 2 ^ (-k) * g x) ∧ g 1 = 2045 / 2048 := by
  refine ⟨odd rec, fun q f out x hW ho hx h => ?_, fun x h => odd_neg _ h,
    fun x k h => odd_scale (fun x hx => rec_scale k hx) h, ?_⟩
  · rw [Proof.Reciprocal.reciprocal_eq q hW ho hx h, core_rec hW hx h, odd_pos rec (abs_pos.2 h)]
    unfold odd
    cases out.S <;> simp
  · rw [odd_pos _ (by norm_num)]
    unfold rec
    rw [one.1, one.2]
    decide +kernel

example : reciprocal .TRN e1 eo 12 = reciprocal .RND e2 eo 12 ∧
    reciprocal .TRN e2 eo (3 / 8) = (reciprocal .TRN e1 eo 12).map (32 * ·) ∧
    reciprocal .TRN e1 eo 1 = some (2045 / 2048) ∧ e1.Rep 12 ∧ e2.Rep 12 ∧ e2.Rep (3 / 8) :=
  ⟨by decide +kernel, by decide +kernel, by decide +kernel, rep1, rep2, rep3⟩

/-- **C85**, the reciprocal by the table of 32 segments. -/
theorem C85_reciprocalHa : ∃ g : ℚ → ℚ,
    (∀ (q : QMode) (f out : Fmt) (x : ℚ), 1 ≤ f.W → 1 ≤ out.W → f.Rep x → x ≠ 0 →
      reciprocalHa q f out x = some (out.cvt (if out.S then g x else g |x|))) ∧
    (∀ x, x ≠ 0 → g (-x) = -g x) ∧ (∀ (x : ℚ) (k : ℤ), x ≠ 0 → g (2 ^ k * x) = 2 ^ (-k) * g x) ∧
    g 1 = 131057 / 131072 := by
  refine ⟨odd (recG haM haC 16 5), fun q f out x hW ho hx h => ?_, fun x h => odd_neg _ h,
    fun x k h => odd_scale (fun x hx => recG_scale _ _ _ _ k hx) h, ?_⟩
  · unfold reciprocalHa
    rw [Proof.PwlHa.recip_eq Proof.PwlHa.goodHa (by norm_num) q hW ho hx h (Or.inl rfl), core_recG hW hx h (Or.inl rfl),
      odd_pos _ (abs_pos.2 h)]
    unfold odd
    cases out.S <;> simp
  · rw [odd_pos _ (by norm_num)]
    unfold recG
    rw [one.1, one.2]
    decide +kernel

example : reciprocalHa .TRN e1 eo 12 = reciprocalHa .RND e2 eo 12 ∧
    reciprocalHa .TRN e1 eo 1 = some (131057 / 131072) := ⟨by decide +kernel, by decide +kernel⟩

/-- **C85**, the reciprocal by the table of 64 segments, with and without the call of the normalization; without, the
argument must fill its type. -/
theorem C85_reciprocalVha : ∃ g : ℚ → ℚ,
    (∀ (q : QMode) (cn : Bool) (f out : Fmt) (x : ℚ), 1 ≤ f.W → 1 ≤ out.W → f.Rep x → x ≠ 0 →
      (cn = true ∨ 2 ^ (f.I - (if f.S then 2 else 1)) ≤ |x|) →
      reciprocalVha q cn f out x = some (out.cvt (if out.S then g x else g |x|))) ∧
    (∀ x, x ≠ 0 → g (-x) = -g x) ∧ (∀ (x : ℚ) (k : ℤ), x ≠ 0 → g (2 ^ k * x) = 2 ^ (-k) * g x) ∧
    g 1 = 32767 / 32768 := by
  refine ⟨odd (recG vhaM vhaC 16 6), fun q cn f out x hW ho hx h hc => ?_, fun x h => odd_neg _ h,
    fun x k h => odd_scale (fun x hx => recG_scale _ _ _ _ k hx) h, ?_⟩
  · unfold reciprocalVha
    rw [Proof.PwlHa.recip_eq Proof.PwlHa.goodVha (by norm_num) q hW ho hx h hc, core_recG hW hx h hc,
      odd_pos _ (abs_pos.2 h)]
    unfold odd
    cases out.S <;> simp
  · rw [odd_pos _ (by norm_num)]
    unfold recG
    rw [one.1, one.2]
    decide +kernel

example : reciprocalVha .TRN true e1 eo 12 = reciprocalVha .RND true e2 eo 12 ∧
    reciprocalVha .TRN true e1 eo 12 = reciprocalVha .TRN false ⟨6, 4, false, .TRN, .WRAP⟩ eo 12 ∧
    (2 : ℚ) ^ ((4 : ℤ) - 1) ≤ |12| := ⟨by decide +kernel, by decide +kernel, by norm_num⟩

/-- **C85**, square root, for the types of one width, and for all types of 15 or more bits together: the value depends on
the argument only and scales with powers of four. Missing: types of different widths below 15, where it is false, see
`C85_sqrt_wrong`. -/
theorem C85_sqrt_partial (q : QMode) (W : ℕ) : ∃ g : ℚ → ℚ,
    (∀ (cn : Bool) (f out : Fmt) (x : ℚ), 1 ≤ f.W → f.W = W ∨ (15 ≤ f.W ∧ 15 ≤ W) → f.S = false → 1 ≤ out.W → out.S = false →
      f.Rep x → 0 < x → (cn = true ∨ 2 ^ (f.I - 1) ≤ x) → sqrt q cn f out x = some (out.cvt (g x))) ∧
    (∀ (x : ℚ) (k : ℤ), 0 < x → g (4 ^ k * x) = 2 ^ k * g x) ∧ g 2 = 2899 / 2048 := by
  refine ⟨sqv q (scBits 12 (W - 3)), fun cn f out x hW hw hS ho hSo hx h hc => ?_, fun x k h => sqv_scale q _ k h, ?_⟩
  · rw [Proof.SqrtPwl.sqrt_eq q cn hW hS ho hSo hx h hc]
    unfold Proof.SqrtPwl.core sqv
    rw [norm_eq hW hS hx h hc]
    have e : scBits 12 (f.W - 3) = scBits 12 (W - 3) := by unfold scBits; omega
    rw [e]
  · unfold sqv Proof.SqrtPwl.m1
    rw [two.1, two.2]
    norm_num
    decide +kernel

example : sqrt .TRN true ⟨16, 8, false, .TRN, .WRAP⟩ eo 5 = sqrt .TRN true ⟨24, 4, false, .TRN, .WRAP⟩ eo 5 ∧
    sqrt .TRN true ⟨16, 8, false, .TRN, .WRAP⟩ eo 20 = (sqrt .TRN true ⟨24, 4, false, .TRN, .WRAP⟩ eo 5).map (2 * ·) ∧
    (⟨16, 8, false, .TRN, .WRAP⟩ : Fmt).Rep 20 :=
  ⟨by decide +kernel, by decide +kernel, ⟨5120, by decide, by decide, by decide +kernel⟩⟩

/-- The square root depends on the width of the type that holds the argument: 1 in a type of 4 bits and in a type of 16. -/
theorem C85_sqrt_wrong : ∃ f f' out : Fmt, f.Rep 1 ∧ f'.Rep 1 ∧ f.S = false ∧ f'.S = false ∧ out.S = false ∧
    sqrt .TRN true f out 1 ≠ sqrt .TRN true f' out 1 :=
  ⟨⟨4, 2, false, .TRN, .WRAP⟩, ⟨16, 2, false, .TRN, .WRAP⟩, eo, ⟨4, by decide, by decide, by decide +kernel⟩,
    ⟨16384, by decide, by decide, by decide +kernel⟩, rfl, rfl, rfl, by decide +kernel⟩

/-- **C85**, inverse square root. -/
theorem C85_inverseSqrt (q : QMode) : ∃ g : ℚ → ℚ,
    (∀ (cn : Bool) (f out : Fmt) (x : ℚ), 1 ≤ f.W → f.S = false → 1 ≤ out.W → out.S = false →
      f.Rep x → 0 < x → (cn = true ∨ 2 ^ (f.I - 1) ≤ x) → inverseSqrt q cn f out x = some (out.cvt (g x))) ∧
    (∀ (x : ℚ) (k : ℤ), 0 < x → g (4 ^ k * x) = 2 ^ (-k) * g x) ∧ g 1 = 1047809 / 1048576 ∧ g 2 = 5789 / 8192 := by
  refine ⟨isq q, fun cn f out x hW hS ho hSo hx h hc => ?_, fun x k h => isq_scale q k h, ?_, ?_⟩
  · rw [Proof.IsqrtPwl.inverseSqrt_eq q cn hW hS ho hSo hx h hc]
    unfold Proof.IsqrtPwl.core isq
    rw [norm_eq hW hS hx h hc]
  · unfold isq Proof.IsqrtPwl.m1
    rw [one.1, one.2]
    cases q <;> decide +kernel
  · unfold isq Proof.IsqrtPwl.m1
    rw [two.1, two.2]
    norm_num
    decide +kernel

example : inverseSqrt .TRN true e1 eo 12 = inverseSqrt .TRN true ⟨30, 10, false, .RND, .SAT⟩ eo 12 ∧
    inverseSqrt .TRN true e1 eo 48 = (inverseSqrt .TRN true e1 eo 12).map (· / 2) := ⟨by decide +kernel, by decide +kernel⟩

/-- **C85**, the inverse square root by the table of 32 segments. -/
theorem C85_inverseSqrtVha (q : QMode) : ∃ g : ℚ → ℚ,
    (∀ (cn : Bool) (f out : Fmt) (x : ℚ), 1 ≤ f.W → f.S = false → 1 ≤ out.W → out.S = false →
      f.Rep x → 0 < x → (cn = true ∨ 2 ^ (f.I - 1) ≤ x) → inverseSqrtVha q cn f out x = some (out.cvt (g x))) ∧
    (∀ (x : ℚ) (k : ℤ), 0 < x → g (4 ^ k * x) = 2 ^ (-k) * g x) ∧ g 2 = 46339 / 65536 := by
  refine ⟨isqV q, fun cn f out x hW hS ho hSo hx h hc => ?_, fun x k h => isqV_scale q k h, ?_⟩
  · rw [Proof.IsqrtVha.inverseSqrtVha_eq q cn hW hS ho hSo hx h hc]
    unfold Proof.IsqrtVha.core isqV
    rw [norm_eq hW hS hx h hc]
  · unfold isqV Proof.IsqrtVha.m1
    rw [two.1, two.2]
    norm_num
    decide +kernel

example : inverseSqrtVha .TRN true e1 eo 12 = inverseSqrtVha .TRN true ⟨30, 10, false, .RND, .SAT⟩ eo 12 ∧
    inverseSqrtVha .TRN true e1 eo 2 = some (46339 / 65536) := ⟨by decide +kernel, by decide +kernel⟩

/-- **C85**, logarithm to base 2: it grows by exactly `k` when the argument is multiplied by `2^k`; at 1 it is 3/2048. -/
theorem C85_log2 : ∃ g : ℚ → ℚ,
    (∀ (q : QMode) (cn : Bool) (f out : Fmt) (x : ℚ), 1 ≤ f.W → f.S = false → f.Rep x → 0 < x →
      (cn = true ∨ 2 ^ (f.I - 1) ≤ x) → log2 q cn f out x = some (out.cvt (g x))) ∧
    (∀ (x : ℚ) (k : ℤ), 0 < x → g (2 ^ k * x) = k + g x) ∧ g 1 = 3 / 2048 := by
  refine ⟨lg, fun q cn f out x hW hS hx h hc => ?_, fun x k h => lg_scale k h, ?_⟩
  · rw [Proof.LogPwl.log2_eq q cn hW hS hx h hc, core_lg hW hS hx h hc]
  · unfold lg
    rw [one.1, one.2]
    decide +kernel

example : log2 .TRN true e1 es 12 = log2 .RND true ⟨30, 10, false, .RND, .SAT⟩ es 12 ∧
    log2 .TRN true e1 es 48 = (log2 .TRN true e1 es 12).map (· + 2) ∧ log2 .TRN true e1 es 1 = some (3 / 2048) :=
  ⟨by decide +kernel, by decide +kernel, by decide +kernel⟩

/-- **C85**, natural logarithm: it grows by exactly `k` times the constant 2839/4096. -/
theorem C85_log : ∃ g : ℚ → ℚ,
    (∀ (q : QMode) (f out : Fmt) (x : ℚ), 1 ≤ f.W → f.S = false → f.Rep x → 0 < x →
      log q f out x = some (out.cvt (g x))) ∧
    (∀ (x : ℚ) (k : ℤ), 0 < x → g (2 ^ k * x) = k * (2839 / 4096) + g x) ∧ g 1 = 8517 / 8388608 := by
  have hl : ln2 = 2839 / 4096 := by decide +kernel
  refine ⟨fun x => lg x * ln2, fun q f out x hW hS hx h => ?_, fun x k h => ?_, ?_⟩
  · rw [Proof.LogPwl.log_eq q hW hS hx h, core_lg hW hS hx h (Or.inl rfl)]
  · simp only [lg_scale k h, hl]; ring
  · simp only [hl]
    unfold lg
    rw [one.1, one.2]
    decide +kernel

example : log .TRN e1 es 12 = log .RND ⟨30, 10, false, .RND, .SAT⟩ es 12 ∧ log .TRN e1 es 1 = some (8517 / 8388608) :=
  ⟨by decide +kernel, by decide +kernel⟩

/-- **C85**, power of two: it is multiplied by exactly `2^n` when the integer `n` is added to the argument; at 0 it is
511/512, so that no integer power of two is exact. -/
theorem C85_pow2 : ∃ g : ℚ → ℚ,
    (∀ (q : QMode) (f out : Fmt) (x : ℚ), 1 ≤ out.W → out.S = false → f.Rep x → pow2 q f out x = some (out.cvt (g x))) ∧
    (∀ (x : ℚ) (n : ℤ), g (x + n) = 2 ^ n * g x) ∧ g 0 = 511 / 512 :=
  ⟨Proof.PowPwl.core, fun q _ _ _ ho hSo hx => Proof.PowPwl.pow2_eq q ho hSo hx, fun x n => pow_scale n x, by decide +kernel⟩

example : pow2 .TRN ⟨6, 3, true, .TRN, .WRAP⟩ eo (-3 / 8) = pow2 .RND e2 eo (-3 / 8) ∧
    pow2 .TRN e2 eo (13 / 8) = (pow2 .TRN e2 eo (-3 / 8)).map (4 * ·) ∧ pow2 .TRN e2 eo 3 = some (511 / 64) :=
  ⟨by decide +kernel, by decide +kernel, by decide +kernel⟩

/-- **C85**, exponential, with 12 or more bits for the product with log2(e), the default being 12; at 0 it is 511/512.
Missing: fewer bits, where it is false, see `C85_exp_wrong`. -/
theorem C85_exp_partial : ∃ g : ℚ → ℚ,
    (∀ (n : ℕ) (q : QMode) (f out : Fmt) (x : ℚ), 12 ≤ n → 1 ≤ f.W → 1 ≤ out.W → out.S = false → f.Rep x →
      exp n q f out x = some (out.cvt (g x))) ∧ g 0 = 511 / 512 := by
  refine ⟨fun x => Proof.PowPwl.core (x * log2e), fun n q f out x hn hW ho hSo hx => ?_, by simp only [zero_mul]; decide +kernel⟩
  rw [Proof.PowPwl.exp_eq n q hW ho hSo hx, core_exp hn]

example : exp 12 .TRN ⟨6, 3, true, .TRN, .WRAP⟩ eo (-3 / 8) = exp 20 .RND e2 eo (-3 / 8) := by decide +kernel

/-- With 4 bits for the product the exponential depends on the type of the argument. -/
theorem C85_exp_wrong : ∃ f f' out : Fmt, f.Rep (-3 / 8) ∧ f'.Rep (-3 / 8) ∧ out.S = false ∧
    exp 4 .TRN f out (-3 / 8) ≠ exp 4 .TRN f' out (-3 / 8) :=
  ⟨⟨6, 3, true, .TRN, .WRAP⟩, e2, eo, ⟨-3, by decide, by decide, by decide +kernel⟩,
    ⟨-384, by decide, by decide, by decide +kernel⟩, rfl, by decide +kernel⟩

example : exp 12 .TRN e2 eo 0 = some (511 / 512) := by decide +kernel

/-- **C85**, arctangents: the value depends on the argument only. At 0 it is 1/1024, 0 and 0. -/
theorem C85_atan (q : QMode) : ∃ g1 g2 g3 : ℚ → ℚ,
    (∀ (f out : Fmt) (x : ℚ), 1 ≤ f.W → f.S = false → f.Rep x → atanPwl q f out x = some (out.cvt (g1 x)) ∧
      atanHa q f out x = some (out.cvt (g2 x)) ∧ atanVha q f out x = some (out.cvt (g3 x))) ∧
    g1 0 = 1 / 1024 ∧ g2 0 = 0 ∧ g3 0 = 0 := by
  obtain ⟨r1, a1, -⟩ := C85_reciprocal
  obtain ⟨r2, a2, -⟩ := C85_reciprocalHa
  obtain ⟨r3, a3, -⟩ := C85_reciprocalVha
  have z : (Proof.Atan.nf 14 q).cvt (0 : ℚ) = 0 ∧ (Proof.Atan.nf 32 q).cvt (0 : ℚ) = 0 ∧ (Proof.Atan.nf 15 q).cvt (0 : ℚ) = 0 :=
    ⟨Fmt.cvt_zero' (by simp [Proof.Atan.nf]), Fmt.cvt_zero' (by simp [Proof.Atan.nf]), Fmt.cvt_zero' (by simp [Proof.Atan.nf])⟩
  refine ⟨Proof.Atan.val atanM atanC 10 2 14 (1608 / 1024) q r1, Proof.Atan.val atanHaM atanHaC 16 5 32 (3373259426 / 2147483648) q r2,
    Proof.Atan.val atanVhaM atanVhaC 18 6 15 (51471 / 32768) q r3, fun f out x hW hS hx => ⟨?_, ?_, ?_⟩, ?_, ?_, ?_⟩
  · refine Proof.Atan.atan_eq Proof.Atan.good hS (fun h => ?_) hx
    have := a1 q f (Proof.Atan.nf 14 q) x hW (by simp [Proof.Atan.nf]) hx (by linarith)
    simpa [Proof.Atan.nf, abs_of_pos (by linarith : 0 < x)] using this
  · refine Proof.Atan.atan_eq Proof.Atan.goodHa hS (fun h => ?_) hx
    have := a2 q f (Proof.Atan.nf 32 q) x hW (by simp [Proof.Atan.nf]) hx (by linarith)
    simpa [Proof.Atan.nf, abs_of_pos (by linarith : 0 < x)] using this
  · refine Proof.Atan.atan_eq Proof.Atan.goodVha hS (fun h => ?_) hx
    have := a3 q true f (Proof.Atan.nf 15 q) x hW (by simp [Proof.Atan.nf]) hx (by linarith) (Or.inl rfl)
    simpa [Proof.Atan.nf, abs_of_pos (by linarith : 0 < x)] using this
  · unfold Proof.Atan.val
    rw [if_neg (by norm_num), z.1]
    decide +kernel
  · unfold Proof.Atan.val
    rw [if_neg (by norm_num), z.2.1]
    decide +kernel
  · unfold Proof.Atan.val
    rw [if_neg (by norm_num), z.2.2]
    decide +kernel

example : atanPwl .TRN e1 eo 12 = atanPwl .TRN ⟨30, 10, false, .RND, .SAT⟩ eo 12 ∧ atanPwl .TRN e1 eo 0 = some (1 / 1024) :=
  ⟨by decide +kernel, by decide +kernel⟩

/-- **C85**, sigmoid: the value depends on the argument only; at 0 it is 513/1024. -/
theorem C85_sigmoid : ∃ g : ℚ → ℚ,
    (∀ (q : QMode) (f out : Fmt) (x : ℚ), 1 ≤ f.W → f.Rep x → sigmoid q f out x = some (out.cvt (g x))) ∧
    (∀ x, x ≠ 0 → g (-x) = 1 - g x) ∧ g 0 = 513 / 1024 := by
  refine ⟨fun x => if x < 0 then 1 - Proof.Sigmoid.mag |x| else Proof.Sigmoid.mag |x|, fun q f out x hW hx => ?_,
    fun x h => ?_, by decide +kernel⟩
  · unfold sigmoid
    rw [Proof.Sigmoid.sigmoidPwl_eq q hW hx]; rfl
  · simp only [abs_neg]
    rcases lt_or_gt_of_ne h with a | a
    · rw [if_neg (by linarith), if_pos a]; ring
    · rw [if_pos (by linarith), if_neg (by linarith)]

example : sigmoid .TRN e1 eo 12 = sigmoid .RND e2 eo 12 ∧ sigmoid .TRN e1 eo 0 = some (513 / 1024) :=
  ⟨by decide +kernel, by decide +kernel⟩

/-- **C85**, hyperbolic tangent, whatever a read outside the tables returns: the value depends on the argument only; at 0
it is 1/1024. -/
theorem C85_tanh : ∃ g : ℚ → ℚ,
    (∀ (oob : ℕ → ℤ × ℤ) (q : QMode) (f out : Fmt) (x : ℚ), 1 ≤ f.W → f.Rep x →
      tanh (fun i => some (oob i)) q f out x = some (out.cvt (g x))) ∧
    (∀ x, x ≠ 0 → g (-x) = -g x) ∧ g 0 = 1 / 1024 := by
  refine ⟨odd Proof.Tanh.mag, fun oob q f out x hW hx => ?_, fun x h => odd_neg _ h, by decide +kernel⟩
  unfold tanh
  rw [Proof.Tanh.tanhPwl_some oob q hW hx]; rfl

example : tanh (fun _ => some (0, 0)) .TRN e1 eo 2 = tanh (fun _ => none) .RND e2 eo 2 ∧
    tanh (fun _ => none) .TRN e1 eo 0 = some (1 / 1024) := ⟨by decide +kernel, by decide +kernel⟩

end Props.Scaling
