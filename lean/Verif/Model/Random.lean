import Verif.Ac.Types
import Verif.Ac.Loop

/-! # Model of ac_random.h

The successive results of `rand()` are a sequence `r` of numbers from 0 to `RAND_MAX`; a function starts with the result number `k`
and returns the generated bits, as a number below `2^W`, with the number of the next result. The value of a signed type is the one
with these bits in two's complement. `old` is what the variable holds before. -/

namespace Model.Random
open Ac

/-- `v.set_slc(0, ac_int<n>(x))`. -/
def setSlc (n v x : ℕ) : ℕ := v / 2 ^ n * 2 ^ n + x % 2 ^ n

/-- `ac_random_ac_s` for more than 16 bits; the loop `for (i = 16; i < W; i += 16)` has `(W - 1) / 16` passes.
ac_random.h:205-217 -/
def acBig (W : ℕ) (r : ℕ → ℕ) (k : ℕ) : ℕ × ℕ :=
  forUp (fun _ s => (setSlc 16 (s.1 * 2 ^ 16 % 2 ^ W) (r s.2), s.2 + 1)) ((W - 1) / 16) (setSlc 16 0 (r k), k + 1)

/-- `ac_random_ac_s` for at most 16 bits. ac_random.h:219-222 -/
def acSmall (W old : ℕ) (r : ℕ → ℕ) (k : ℕ) : ℕ × ℕ := (setSlc W old (r k), k + 1)

/-- `ac_random` of `ac_int<W,S>` and of `ac_fixed<W,I,S,Q,O>`; `old` is what the static `v_temp` holds. ac_random.h:224-234, 245-255 -/
def ac (W old : ℕ) (r : ℕ → ℕ) (k : ℕ) : ℕ × ℕ := if W ≤ 16 then acSmall W old r k else acBig W r k

/-- `ac_random` of `ac_float<W,I,E,Q>`: the bits of mantissa and exponent before they are normalized; `om` and `oe` are what the two
static variables hold. ac_random.h:267-280 -/
def acFloat (W E om oe : ℕ) (r : ℕ → ℕ) (k : ℕ) : (ℕ × ℕ) × ℕ :=
  let m := ac W om r k
  let e := ac E oe r m.2
  ((m.1, e.1), e.2)

/-- `ac_random` of the C type of `16 * size` bits, or of 8 bits if `size` is 0. ac_random.h:102-131 -/
def builtin (N : ℕ) (r : ℕ → ℕ) (k : ℕ) : ℕ × ℕ :=
  let size := N / 16
  if size ≤ 1 then (r k % 2 ^ N, k + 1)
  else forUp (fun _ s => ((s.1 * 2 ^ 16 % 2 ^ N) ||| (r s.2 &&& 0xffff), s.2 + 1)) (size - 1) (r k &&& 0xffff, k + 1)

/-- `v.range(lo + n - 1, lo) = x`. -/
def setRange (lo n v x : ℕ) : ℕ := v % 2 ^ lo + x % 2 ^ n * 2 ^ lo + v / 2 ^ (lo + n) * 2 ^ (lo + n)

/-- `ac_systemc_builtin_it`: the loop `for (; hi < size; lo += 16, hi += 16)` has `size / 16` passes. ac_random.h:162-174 -/
def systemc (W old : ℕ) (r : ℕ → ℕ) (k : ℕ) : ℕ × ℕ :=
  let s := forUp (fun j s => (setRange (16 * j) 16 s.1 (r s.2 &&& 0xffff), s.2 + 1)) (W / 16) (old, k)
  let lo := 16 * (W / 16)
  if lo < W then (setRange lo (W - lo) s.1 (r s.2 &&& 0xffff), s.2 + 1) else s

end Model.Random
