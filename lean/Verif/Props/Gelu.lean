import Verif.Proof.Gelu

/-! # C48: GELU

`gelu oob q f out x` is the output of `ac_gelu_pwl<q>` for the input `x` of type `f` and an output of type `out`; `none` for
undefined behaviour. `oob` says what a read outside the tables of `ac_tanh_pwl` gives: `fun _ => none` in C++, some bits in a
circuit. `out.cvt r` is the assignment of the exact number `r` to the output. -/

namespace Props.Gelu
open Ac Model.Activations

/-- The input and output types whose argument of the hyperbolic tangent fits the type the function declares for it:
input and output both signed or both unsigned, or an unsigned input of 3 integer bits and more with a signed output; the
declared type has at least 6 bits; the input is not the type of one integer bit alone. -/
def Supported (f out : Fmt) : Prop :=
  ¬ (f.W = 1 ∧ f.I = 1) ∧ 6 ≤ f.W + 2 * f.I + 10 ∧ (f.S = out.S ∨ (f.S = false ∧ out.S = true ∧ 3 ≤ f.I))

/-- **C48**, table safety, for inputs up to 11/4. Missing: larger inputs, where it is false, see `C48_table_wrong`. -/
theorem C48_table_partial (q : QMode) {f out : Fmt} (hW : 1 ≤ f.W) (hf : Supported f out) (hI : f.I ≤ f.W) {x : ℚ} (hx : f.Rep x)
    (h : |x| ≤ 11 / 4) : (gelu (fun _ => none) q f out x).isSome := by
  have h1 := (Proof.Gelu.t_abs hW hf hI hx le_rfl (abs_nonneg x) h).2
  have v : Proof.Gelu.t0 (11 / 4) + 1 / 64 < 3 := by decide +kernel
  rw [Proof.Gelu.gelu_in q hf (by linarith)]
  rfl

example : gelu (fun _ => none) .TRN ⟨16, 3, true, .TRN, .WRAP⟩ ⟨16, 3, true, .TRN, .WRAP⟩ 1 = some (6880 / 8192) ∧
    Supported ⟨16, 3, true, .TRN, .WRAP⟩ ⟨16, 3, true, .TRN, .WRAP⟩ := ⟨by decide +kernel, by unfold Supported; decide⟩

/-- Every input of magnitude between 14/5 and 33/10 makes the function read outside the tables: undefined behaviour. -/
theorem C48_table_wrong (q : QMode) {f out : Fmt} (hW : 1 ≤ f.W) (hf : Supported f out) (hI : f.I ≤ f.W) {x : ℚ} (hx : f.Rep x)
    (h0 : 14 / 5 ≤ |x|) (h1 : |x| ≤ 33 / 10) : gelu (fun _ => none) q f out x = none := by
  obtain ⟨a, b⟩ := Proof.Gelu.t_abs hW hf hI hx (by norm_num) h0 h1
  have v : Proof.Gelu.t0 (33 / 10) + 1 / 64 < 4 := by decide +kernel
  have v' : 3 ≤ Proof.Gelu.t0 (14 / 5) - 1 / 64 := by decide +kernel
  exact Proof.Gelu.gelu_oob q hf (by linarith) (by linarith)

example : gelu (fun _ => none) .TRN ⟨16, 3, true, .TRN, .WRAP⟩ ⟨16, 3, true, .TRN, .WRAP⟩ 3 = none ∧
    (⟨16, 3, true, .TRN, .WRAP⟩ : Fmt).Rep 3 := ⟨by decide +kernel, ⟨24576, by decide, by decide, by decide +kernel⟩⟩

/-- **C48**, the value read outside the tables is discarded: two implementations agree on every input. -/
theorem C48_discarded (g g' : ℕ → ℤ × ℤ) (q : QMode) {f out : Fmt} (hf : Supported f out) (x : ℚ) :
    gelu (fun i => some (g i)) q f out x = gelu (fun i => some (g' i)) q f out x := by
  rw [Proof.Gelu.gelu_eq g q hf, Proof.Gelu.gelu_eq g' q hf]

/-- **C48**, error, for the supported types: the output is the conversion of a number within `|x| / 398` of the real
function, plus half a unit of the last place of the argument of the hyperbolic tangent times `|x|`. Missing: the other types,
where it is false, see `C48_unsigned_wrong`. -/
theorem C48_gelu_partial (g : ℕ → ℤ × ℤ) (q : QMode) {f out : Fmt} (hW : 1 ≤ f.W) (hf : Supported f out) {x : ℚ} (hx : f.Rep x) :
    ∃ r : ℚ, gelu (fun i => some (g i)) q f out x = some (out.cvt r) ∧
    |(r : ℝ) - Spec.Activations.gelu x| ≤ |(x : ℝ)| * (1 / 398 + 2 ^ (-(tanhInp f out).F) / 2) :=
  ⟨_, Proof.Gelu.gelu_eq g q hf x, Proof.Gelu.r_err hW hf hx⟩

example : (⟨16, 3, true, .TRN, .WRAP⟩ : Fmt).Rep (-3) ∧ (tanhInp ⟨16, 3, true, .TRN, .WRAP⟩ ⟨16, 3, true, .TRN, .WRAP⟩).F = 26 :=
  ⟨⟨-24576, by decide, by decide, by decide +kernel⟩, by decide⟩

/-- **C48**, range: the converted number lies between 0 and the input. -/
theorem C48_range (g : ℕ → ℤ × ℤ) (q : QMode) {f out : Fmt} (hf : Supported f out) (x : ℚ) :
    ∃ r : ℚ, gelu (fun i => some (g i)) q f out x = some (out.cvt r) ∧ (0 ≤ x → 0 ≤ r ∧ r ≤ x) ∧ (x ≤ 0 → x ≤ r ∧ r ≤ 0) :=
  ⟨_, Proof.Gelu.gelu_eq g q hf x, Proof.Gelu.r_range f out x⟩

/-- **C48**, large inputs: from 3 on the converted number is the input up to a factor `1 - 2 ^ -21`; from -3 down it is the
input divided by `2 ^ 21`. -/
theorem C48_large (g : ℕ → ℤ × ℤ) (q : QMode) {f out : Fmt} (hW : 1 ≤ f.W) (hf : Supported f out) (hI : f.I ≤ f.W) {x : ℚ} (hx : f.Rep x)
    (h : 3 ≤ |x|) :
    gelu (fun i => some (g i)) q f out x = some (out.cvt (if 0 ≤ x then x * (1 - 1 / 2 ^ 21) else x / 2 ^ 21)) := by
  rw [Proof.Gelu.gelu_eq g q hf x, ← Proof.Gelu.r_large hW hf hI hx h]
  rfl

example : gelu (fun i => some (i, 7)) .TRN ⟨16, 4, true, .TRN, .WRAP⟩ ⟨16, 4, true, .TRN, .WRAP⟩ (-5) = some (-1 / 4096) := by
  decide +kernel

/-- An unsigned input of one integer bit with a signed output: GELU of 3/2 comes out below 1/3, the real value is 1.4. The
argument of the hyperbolic tangent does not fit its type and becomes negative. -/
theorem C48_unsigned_wrong : gelu (fun _ => none) .TRN ⟨16, 1, false, .TRN, .WRAP⟩ ⟨32, 8, true, .TRN, .WRAP⟩ (3 / 2) = some (321567 / 1048576) ∧
    (⟨16, 1, false, .TRN, .WRAP⟩ : Fmt).Rep (3 / 2) :=
  ⟨by decide +kernel, ⟨49152, by decide, by decide, by decide +kernel⟩⟩

end Props.Gelu
