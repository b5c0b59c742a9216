import Verif.Ac.Types
import Mathlib.Data.Nat.Bitwise
import Batteries.Data.Nat.Lemmas

/-! # Models of ac_abs.h, ac_barrel_shift.h, ac_leading_ones_tmpl.h, ac_leading.h -/

namespace Model.Bits
open Ac

/-! ## ac_abs.h -/

/-- The magnitude computed by `ac_abs` on `ac_int<XW,true>`: xor with the sign, add the sign bit, store in
`ac_int<XW,false>`. ac_abs.h:127-128.  Xor with the 1-bit signed value -1 (sign extended) is complement. -/
def absMag (XW : ℕ) (x : ℤ) : ℤ :=
  let xltz : ℤ := if x < 0 then -1 else 0
  wrap XW false (wrap XW true (if xltz = 0 then x else ~~~x) + wrap 1 false xltz)

/-- `ac_abs` for `ac_int` with an unsigned (`YS = false`, ac_abs.h:121-130) or signed (132-141) output. -/
def absInt (XW YW : ℕ) (YS : Bool) (x : ℤ) : ℤ := wrap YW YS (absMag XW x)

/-- `ac_abs` for `ac_fixed`: the raw bits go through the integer version, then one conversion to the output type.
ac_abs.h:183-196 (unsigned output), 198-207 (signed output).  `x` is the raw integer of the input. -/
def absFixed (XW : ℕ) (XI : ℤ) (fY : Fmt) (x : ℤ) : ℚ :=
  fY.cvt ((Fmt.mk XW XI false .TRN .WRAP).val (absMag XW x))

/-! ## ac_barrel_shift.h -/

/-- `shift_layer`. ac_barrel_shift.h:76-85.  The word is duplicated, shifted right by `2^i` when bit `i` of `s` is
set, and the low N bits are kept. -/
def shiftLayer (N din s i : ℕ) : ℕ :=
  let dup := din + din * 2 ^ N
  let sh := if s.testBit i then dup / 2 ^ (2 ^ i) else dup
  sh % 2 ^ N

/-- Layers `i, i+1, …, i+n-1`. ac_barrel_shift.h:97-99 -/
def barrelLoop (N s : ℕ) : ℕ → ℕ → ℕ → ℕ
  | 0, _, din => din
  | n + 1, i, din => barrelLoop N s n (i + 1) (shiftLayer N din s i)

/-- `ac_barrel_shift<NUM_BITS>(din, s_in)`; `s` has `nbits<NUM_BITS-1>` bits. ac_barrel_shift.h:89-101 -/
def barrelShift (N din s : ℕ) : ℕ := barrelLoop N s (nbits (N - 1)) 0 din

/-! ## ac_leading_ones_tmpl.h -/

/-- `ac_leading_ones<N_BITS>` as a pair (returned flag, dout). ac_leading_ones_tmpl.h:83-117.
The template recursion is on smaller widths; `fuel` bounds it (`fuel = N` suffices because both halves are
narrower than N).  `slc`/`set_slc` are div/mod; `|` is bitwise or. -/
def leadingOnesAux : ℕ → ℕ → ℕ → Bool × ℕ
  | 0, _, din => (decide (din % 2 = 1), 0)
  | fuel + 1, N, din =>
    if N ≤ 1 then (decide (din % 2 = 1), 0)
    else
      let P2 := nbits ((N + 1) / 2)
      let upper := din / 2 ^ P2 % 2 ^ (N - P2)
      let lower := din % 2 ^ P2
      let idx := if upper ≠ 0 then ((leadingOnesAux fuel (N - P2) upper).2 ||| P2) % 2 ^ (log2Ceil N)
        else (leadingOnesAux fuel P2 lower).2 % 2 ^ (log2Ceil N)
      (decide (din ≠ 0), idx)

/-- `ac_leading_ones<N>(din, dout)`. ac_leading_ones_tmpl.h:83-117 -/
def leadingOnes (N din : ℕ) : Bool × ℕ := leadingOnesAux N N din

/-! ## ac_leading.h -/

/-- `leading_sign()` of an unsigned W-bit word: its number of leading zeros (ac_types; W for zero). -/
def leadingSignU (W x : ℕ) : ℕ := if x = 0 then W else W - 1 - Nat.log2 x

/-- Bit reversal loop `rev[i] = din[W-1-i]`. ac_leading.h:91-93 -/
def rev (W x : ℕ) : ℕ := Nat.ofBits (fun i : Fin W => x.testBit (W - 1 - i))

/-- `leading1` on the W searched bits, as (flag, result); `RB` is the width of the returned type.
ac_leading.h:71-80 (ac_int), 219-228 (ac_fixed) with the whole word, 140-151, 288-299 with the low bits of a
signed word. -/
def lead1 (RB W x : ℕ) : Bool × ℕ :=
  let ls := leadingSignU W x
  (decide (W ≠ ls), if ls = W then 0 else (W - 1 - ls) % 2 ^ RB)

/-- `trailing1`. ac_leading.h:84-99, 232-246 (whole word), 155-171, 303-319 (low bits of a signed word). -/
def trail1 (RB W x : ℕ) : Bool × ℕ :=
  let ls := leadingSignU W (rev W x)
  (decide (W ≠ ls), if ls = W then 0 else ls % 2 ^ RB)

/-- Complement of a W-bit word. -/
def compl (W x : ℕ) : ℕ := 2 ^ W - 1 - x

/-- `leading0`: the search for a 1 in the complement. ac_leading.h:102-113, 250-260, 175-191, 323-339. -/
def lead0 (RB W x : ℕ) : Bool × ℕ := lead1 RB W (compl W x)

/-- `trailing0`. ac_leading.h:116-131, 194-209, 264-278, 342-358. -/
def trail0 (RB W x : ℕ) : Bool × ℕ := trail1 RB W (compl W x)

/-- Which of the four searches. -/
inductive Search | lead1 | trail1 | lead0 | trail0
  deriving DecidableEq, Repr

/-- The four functions on an unsigned word (`ac_int<W,false>` or `ac_fixed<W,I,false>`). The result type has
`nbits<W>` bits for leading1 and `nbits<W-1>` bits for the others. -/
def searchU (k : Search) (W x : ℕ) : Bool × ℕ :=
  match k with
  | .lead1 => lead1 (nbits W) W x
  | .trail1 => trail1 (nbits (W - 1)) W x
  | .lead0 => lead0 (nbits (W - 1)) W x
  | .trail0 => trail0 (nbits (W - 1)) W x

/-- The four functions on a signed word of width W: only the low W-1 bits are searched
(`din.template slc<W-1>(0)`).  In leading0/trailing0 the complement `~` is taken on those W-1 bits. -/
def searchS (k : Search) (W : ℕ) (x : ℤ) : Bool × ℕ :=
  let t := (x % 2 ^ (W - 1)).toNat
  match k with
  | .lead1 => lead1 (nbits W) (W - 1) t
  | .trail1 => trail1 (nbits (W - 1)) (W - 1) t
  | .lead0 => lead0 (nbits (W - 1)) (W - 1) t
  | .trail0 => trail0 (nbits (W - 1)) (W - 1) t

end Model.Bits
