import Mathlib.Data.Rat.Floor
import Mathlib.Algebra.Order.Floor.Ring

/-!
# Semantics of `ac_int` and `ac_fixed`

The ac_types library is not part of /repo (it is an external dependency, `#include <ac_int.h>` and
`#include <ac_fixed.h>`, e.g. include/ac_math/ac_div.h:60-70).  This file states the part of its semantics that
the model relies on.  It belongs to the trusted base (DESIGN.md).
-/

namespace Ac

/-- `ac_q_mode`: the eight quantization modes of ac_fixed. -/
inductive QMode
  | TRN | RND | TRN_ZERO | RND_ZERO | RND_INF | RND_MIN_INF | RND_CONV | RND_CONV_ODD
  deriving DecidableEq, Repr

/-- `ac_o_mode`: the four overflow modes of ac_fixed. -/
inductive OMode
  | WRAP | SAT | SAT_ZERO | SAT_SYM
  deriving DecidableEq, Repr

/-- Smallest raw integer of a W-bit word. -/
def minRaw (W : ℕ) (S : Bool) : ℤ := if S then -2 ^ (W - 1) else 0

/-- Largest raw integer of a W-bit word (`set_val<AC_VAL_MAX>`). -/
def maxRaw (W : ℕ) (S : Bool) : ℤ := if S then 2 ^ (W - 1) - 1 else 2 ^ W - 1

/-- Assignment to `ac_int<W,S>`: keep the low W bits, read as unsigned or two's complement. -/
def wrap (W : ℕ) (S : Bool) (x : ℤ) : ℤ :=
  if S then (x + 2 ^ (W - 1)) % 2 ^ W - 2 ^ (W - 1) else x % 2 ^ W

/-- `ac::nbits<n>::val`: bits needed to write n in binary (1 for 0). -/
def nbits (n : ℕ) : ℕ := if n = 0 then 1 else Nat.log2 n + 1

/-- `ac::log2_ceil<n>::val`. -/
def log2Ceil (n : ℕ) : ℕ := if n ≤ 1 then 0 else Nat.log2 (n - 1) + 1

section Quant
variable {R : Type*} [Field R] [LinearOrder R] [IsStrictOrderedRing R] [FloorRing R]

/-- Rounding a number to an integer, per quantization mode (AC Datatypes manual, "Quantization"). -/
def quant (q : QMode) (x : R) : ℤ :=
  match q with
  | .TRN => ⌊x⌋
  | .RND => ⌊x + 1 / 2⌋
  | .TRN_ZERO => if x < 0 then ⌈x⌉ else ⌊x⌋
  | .RND_ZERO => if x < 0 then ⌊x + 1 / 2⌋ else ⌈x - 1 / 2⌉
  | .RND_INF => if x < 0 then ⌈x - 1 / 2⌉ else ⌊x + 1 / 2⌋
  | .RND_MIN_INF => ⌈x - 1 / 2⌉
  | .RND_CONV =>
      if x - ⌊x⌋ < 1 / 2 then ⌊x⌋ else if 1 / 2 < x - ⌊x⌋ then ⌊x⌋ + 1
      else if ⌊x⌋ % 2 = 0 then ⌊x⌋ else ⌊x⌋ + 1
  | .RND_CONV_ODD =>
      if x - ⌊x⌋ < 1 / 2 then ⌊x⌋ else if 1 / 2 < x - ⌊x⌋ then ⌊x⌋ + 1
      else if ⌊x⌋ % 2 = 0 then ⌊x⌋ + 1 else ⌊x⌋

end Quant

/-- Overflow handling of a quantized raw integer (AC Datatypes manual, "Overflow"). -/
def ovf (W : ℕ) (S : Bool) (o : OMode) (n : ℤ) : ℤ :=
  match o with
  | .WRAP => wrap W S n
  | .SAT => if maxRaw W S < n then maxRaw W S else if n < minRaw W S then minRaw W S else n
  | .SAT_ZERO => if maxRaw W S < n ∨ n < minRaw W S then 0 else n
  | .SAT_SYM =>
      if maxRaw W S < n then maxRaw W S
      else if n < (if S then -maxRaw W S else 0) then (if S then -maxRaw W S else 0) else n

/-- An `ac_fixed<W,I,S,Q,O>` type. `I` may be negative or exceed `W`. -/
structure Fmt where
  W : ℕ
  I : ℤ
  S : Bool := false
  Q : QMode := .TRN
  O : OMode := .WRAP
  deriving DecidableEq, Repr

namespace Fmt

/-- Number of fractional bits `W - I`. -/
def F (f : Fmt) : ℤ := f.W - f.I

/-- The value of a raw integer in format `f`. -/
def val (f : Fmt) (r : ℤ) : ℚ := r * 2 ^ (-f.F)

/-- The values a variable of type `f` can hold. -/
def Rep (f : Fmt) (x : ℚ) : Prop := ∃ r : ℤ, minRaw f.W f.S ≤ r ∧ r ≤ maxRaw f.W f.S ∧ x = f.val r

/-- The raw integer of a represented value. -/
def raw (f : Fmt) (x : ℚ) : ℤ := ⌊x * 2 ^ f.F⌋

section
variable {R : Type*} [Field R] [LinearOrder R] [IsStrictOrderedRing R] [FloorRing R]

/-- Raw integer stored by the assignment of a number to a variable of type `f`:
one quantization, then one overflow step. -/
def cvtRaw (f : Fmt) (x : R) : ℤ := ovf f.W f.S f.O (quant f.Q (x * 2 ^ f.F))

/-- Assignment of a number to a variable of type `f`. -/
def cvt (f : Fmt) (x : R) : ℚ := f.val (f.cvtRaw x)
end

/-- `set_val<AC_VAL_MAX>()`. -/
def maxVal (f : Fmt) : ℚ := f.val (maxRaw f.W f.S)

/-- `set_val<AC_VAL_MIN>()`.  (`AC_VAL_MIN` is the two's complement minimum also for SAT_SYM.) -/
def minVal (f : Fmt) : ℚ := f.val (minRaw f.W f.S)

/-- `x >> n` / `x << -n` on ac_fixed: the result keeps the type of `x`; bits shifted out are dropped,
bits shifted beyond the top are lost. -/
def shr (f : Fmt) (x : ℚ) (n : ℤ) : ℚ := f.val (wrap f.W f.S ⌊f.raw x * (2 : ℚ) ^ (-n)⌋)

/-- `x << n` on ac_fixed. -/
def shl (f : Fmt) (x : ℚ) (n : ℤ) : ℚ := f.shr x (-n)

end Fmt

end Ac
