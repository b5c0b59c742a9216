import Verif.Ac.Loop
import Verif.Model.AddTree
import Verif.Model.Bits

/-! # Model of include/ac_std_float_add_tree.h

An `ac_std_float<W,E>` is its bit pattern, a natural number below `2^W`; `M = W-E-1` is the number of mantissa bits.
`X` is AccExtraLSBs, `q` is QR, `nosub` is No_SubNormals, `N` is N_ELEMS.  ac_ieee_float and ac::bfloat16 arguments are
converted by their own libraries to and from this type (ac_std_float_add_tree.h:463-485, 538-560) and are not modelled
separately. -/

namespace Model.StdAddTree
open Ac

/-- Biased exponent field `e`, read as unsigned. ac_std_float_add_tree.h:126, 185 -/
def expo (M E d : ℕ) : ℕ := d / 2 ^ M % 2 ^ E

/-- `m_zero`. ac_std_float_add_tree.h:130 -/
def mantZero (M d : ℕ) : Bool := decide (d % 2 ^ M = 0)

/-- `sign`. ac_std_float_add_tree.h:137 -/
def sgn (M E d : ℕ) : Bool := d.testBit (M + E)

/-- `inf`. ac_std_float_add_tree.h:127, 138.  `e == -1` on the signed field: all ones. -/
def inf (M E d : ℕ) : Bool := decide (expo M E d = 2 ^ E - 1) && mantZero M d

/-- `nan`. ac_std_float_add_tree.h:139 -/
def nan (M E d : ℕ) : Bool := decide (expo M E d = 2 ^ E - 1) && !mantZero M d

/-- `op_mu[i]` after extraction and the subnormal fix. ac_std_float_add_tree.h:128-132, 193-202 -/
def mu (nosub : Bool) (M E d : ℕ) : ℕ :=
  let e := expo M E d
  let normal := decide (e ≠ 0) || nosub
  let zero := decide (e = 0) && (nosub || mantZero M d)
  let m := d % 2 ^ M + (if e ≠ 0 then 2 ^ M else 0)
  if !normal then (if nosub then 0 else 2 * m % 2 ^ (M + 1))
  else if nosub && zero then 0 else m

/-- `op_e_b_max`. ac_std_float_add_tree.h:189 (`max_s` is the same tree as `max_r`, lines 93-116). -/
def emax (M E N : ℕ) (x : ℕ → ℕ) : ℕ := (AddTree.maxAux N N fun k => expo M E (x k)).toNat

/-- `logN_MSBs`. ac_std_float_add_tree.h:235 -/
def logN (N : ℕ) : ℕ := nbits (N - 1)

/-- `op_bits`. ac_std_float_add_tree.h:236 -/
def opBits (M N : ℕ) : ℕ := M + 1 + logN N

/-- `e_dif_sat[i]`: the exponent difference saturated to `nbits<mu_bits+1>` bits. ac_std_float_add_tree.h:223-233 -/
def eDifSat (M em e : ℕ) : ℕ := min (em - e) (2 ^ nbits (M + 2) - 1)

/-- `sticky_bit_mask` at the end. ac_std_float_add_tree.h:250-253 -/
def stickyMask (M X d : ℕ) : ℕ :=
  let w := M + 2 + (X - 1)
  (2 ^ w - 1 - (2 ^ w - 1) * 2 ^ d % 2 ^ w) / 2 ^ (X - 1)

/-- `add_op[i]` as a raw integer with `X` fractional bits. ac_std_float_add_tree.h:245, 254-258 -/
def addOp (M X m d : ℕ) : ℕ :=
  let sticky := if m &&& stickyMask M X d ≠ 0 then 1 else 0
  let a := m * 2 ^ X / 2 ^ d
  a - a % 2 + sticky

/-- `to_add[i]`. ac_std_float_add_tree.h:261 -/
def toAdd (nosub : Bool) (M E X N : ℕ) (x : ℕ → ℕ) (k : ℕ) : ℤ :=
  let a : ℤ := addOp M X (mu nosub M E (x k)) (eDifSat M (emax M E N x) (expo M E (x k)))
  wrap (1 + opBits M N + X) true (if sgn M E (x k) then -a else a)

/-- `res_mant_signed`. ac_std_float_add_tree.h:142-151, 265 -/
def total (nosub : Bool) (M E X N : ℕ) (x : ℕ → ℕ) : ℤ :=
  forUp (fun k acc => wrap (1 + opBits M N + X) true (acc + toAdd nosub M E X N x k)) N 0

/-- Normalized and rounded magnitude. -/
structure Norm where
  /-- `resexp` -/
  resexp : ℤ
  /-- `res_rounded` before the overflow check -/
  rounded : ℕ
  /-- `incr` -/
  incr : Bool
  /-- `res_rounded` after the overflow check -/
  rounded' : ℕ
  /-- `op_e_b_max` after `+= incr + 1` -/
  eb : ℕ
  /-- `r_normal` -/
  normal : Bool
  deriving DecidableEq, Repr

/-- Normalization and rounding of the magnitude `R` (`res_mant`). ac_std_float_add_tree.h:274-308.
`op_e_b_max` is an unsigned E-bit word: its updates wrap. -/
def normalize (q : QMode) (M E X N em R : ℕ) : Norm :=
  let W := opBits M N + X
  let ls := Bits.leadingSignU W R
  let resexp : ℤ := (em : ℤ) - ls + logN N - 1
  let sub := decide (resexp < 0)
  let ls' := if sub then em % 2 ^ nbits W else ls
  let eb : ℤ := if sub then wrap E false (-1) else wrap E false resexp
  let R1 := R * 2 ^ ls' % 2 ^ W / 2
  let rr := ((⟨M + 2, opBits M N, false, q, .WRAP⟩ : Fmt).cvtRaw
    ((⟨W, opBits M N, false, q, .WRAP⟩ : Fmt).val R1)).toNat
  let incr := rr.testBit (M + 1) && decide (q ≠ .TRN_ZERO)
  { resexp
    rounded := rr
    incr
    rounded' := if incr then rr / 2 else rr
    eb := (wrap E false (eb + ((if incr then 1 else 0) + 1))).toNat
    normal := !sub || (incr && decide (resexp = -1)) }

/-- Packing. ac_std_float_add_tree.h:309-342.  `isInf`, `isNan`, `negInf`, `posInf` are the flags of the loop at
lines 204-219, `rsign` the sign of the sum, `rz` whether the sum is zero. -/
def pack (q : QMode) (nosub : Bool) (M E : ℕ) (isInf isNan negInf posInf rsign rz : Bool) (n : Norm) : ℕ :=
  let maxExp := 2 ^ (E - 1) - 1
  let rinf := decide (n.eb > maxExp + maxExp + 1)
  let expMax := decide (n.eb = maxExp + maxExp + 1)
  let rzero := rz || (nosub && !n.normal)
  let m := n.rounded' % 2 ^ M
  let sat := (rinf || expMax) && decide (q = .TRN_ZERO)
  let eb := if sat then maxExp + maxExp else n.eb
  let rinf := if sat then false else rinf
  let m := if sat then 2 ^ M - 1 else m
  let rinf := rinf || isInf
  let rsign := if negInf || posInf then negInf && !posInf else rsign
  let exception := isNan || rinf
  let e := if exception || rzero then (if exception then 2 ^ E - 1 else 0) else eb % 2 ^ E
  let exception := exception || (expMax && decide (q ≠ .TRN_ZERO))
  let m := if exception || rzero then (if isNan then 2 ^ M - 1 else 0) else m
  m + e * 2 ^ M + (if rsign then 2 ^ (M + E) else 0)

/-- `a[0] | a[1] | … | a[N-1]` computed by a loop. -/
def anyLoop (N : ℕ) (p : ℕ → Bool) : Bool := forUp (fun k b => b || p k) N false

/-- `fadd_tree`. ac_std_float_add_tree.h:153-343, 404-410 -/
def faddTree (q : QMode) (nosub : Bool) (M E X N : ℕ) (x : ℕ → ℕ) : ℕ :=
  let isInf := anyLoop N fun k => inf M E (x k)
  let negInf := anyLoop N fun k => inf M E (x k) && sgn M E (x k)
  let posInf := anyLoop N fun k => inf M E (x k) && !sgn M E (x k)
  let isNan := (anyLoop N fun k => nan M E (x k)) || (negInf && posInf)
  let t := total nosub M E X N x
  let rsign := decide (t < 0)
  let R := (wrap (opBits M N + X) false (if rsign then -t else t)).toNat
  let n := normalize q M E X N (emax M E N x) R
  pack q nosub M E isInf isNan negInf posInf rsign (decide (R = 0)) n

end Model.StdAddTree
