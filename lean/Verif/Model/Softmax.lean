import Verif.Model.PwlFixed
import Verif.Ac.Loop

/-! # Models of ac_softmax_pwl_new.h and ac_softmax_pwl.h

The array of the `K` inputs is the function `x`, read at `0 ... K-1`. The arguments `e` and `l` are `exp2f_fw` and `l2e_fw`, the
numbers of fraction bits chosen by the caller or by default (`defaultE`, 16). -/

namespace Model.Softmax
open Ac

/-- `exp2f_fw` when the caller gives none. ac_softmax_pwl_new.h:132 -/
def defaultE (f : Fmt) : ℕ := (max 1 (min 10 ((f.W : ℤ) - f.I - 2))).toNat + 10

/-- `full_prec_log2e`, 1.4426950407214462757110595703125. ac_softmax_pwl_new.h:123 -/
def fullLog2e : ℚ := 6196328018 / 4294967296

/-- `log2e_type`. ac_softmax_pwl_new.h:126 -/
def log2eFmt (l : ℕ) : Fmt := ⟨l + 1, 1, false, .TRN, .WRAP⟩

/-- `log2e`. ac_softmax_pwl_new.h:127 -/
def log2e (l : ℕ) : ℚ := (log2eFmt l).cvt fullLog2e

/-- `b2_pow_type`. ac_softmax_pwl_new.h:128 -/
def powFmt (l : ℕ) (f : Fmt) : Fmt := (log2eFmt l).mult f

/-- The type of `exp2_frac` and `prod`. ac_softmax_pwl_new.h:133,151 -/
def expFmt (e : ℕ) : Fmt := ⟨e + 1, 1, false, .TRN, .WRAP⟩

/-- `sprod_Iw`. ac_softmax_pwl_new.h:152 -/
def sumI (K : ℕ) : ℕ := nbits (2 * K - 1)

/-- The type of `prod_sum`. ac_softmax_pwl_new.h:153 -/
def sumFmt (K e : ℕ) : Fmt := ⟨e + sumI K, sumI K, false, .TRN, .WRAP⟩

/-- The type of `recip_sum`. ac_softmax_pwl_new.h:161-164 -/
def recFmt (K e : ℕ) : Fmt := ⟨(sumFmt K e).W + 20, (sumFmt K e).W - (sumFmt K e).I + 1, false, .TRN, .WRAP⟩

/-- `b2_pow`. ac_softmax_pwl_new.h:136 -/
def b2pow (l : ℕ) (f : Fmt) (x : ℚ) : ℚ := (powFmt l f).cvt (x * log2e l)

/-- `b2p_I[i]`. ac_softmax_pwl_new.h:137 -/
def intPart (l : ℕ) (f : Fmt) (x : ℚ) : ℤ := wrap (powFmt l f).I.toNat (powFmt l f).S ⌊b2pow l f x⌋

/-- `exp2_frac[i]`. ac_softmax_pwl_new.h:138-146 -/
def expFrac (e l : ℕ) (q : QMode) (f : Fmt) (x : ℚ) : Option ℚ :=
  if (powFmt l f).I < (powFmt l f).W then
    let fw : ℕ := ((powFmt l f).W - (powFmt l f).I).toNat
    let ff : Fmt := ⟨fw, 0, false, .TRN, .WRAP⟩
    PwlFixed.pow2 q ff (expFmt e) (ff.val ((powFmt l f).raw (b2pow l f x) % 2 ^ fw))
  else some ((expFmt e).cvt (1 : ℚ))

/-- `b2p_Im`; uninitialized before the first element. ac_softmax_pwl_new.h:147-148 -/
def maxInt (l : ℕ) (f : Fmt) (K : ℕ) (x : ℕ → ℚ) (junk : ℤ) : ℤ :=
  forUp (fun i m => if i = 0 then intPart l f (x i) else if intPart l f (x i) > m then intPart l f (x i) else m) K junk

/-- `prod[i]`: `>>` keeps the type and drops the bits shifted out. ac_softmax_pwl_new.h:156-157 -/
def prod (e l : ℕ) (f : Fmt) (im : ℤ) (x ef : ℚ) : ℚ :=
  (expFmt e).val ((expFmt e).raw ef / 2 ^ (wrap (powFmt l f).I.toNat false (im - intPart l f x)).toNat)

/-- `prod_sum`. ac_softmax_pwl_new.h:153,158 -/
def prodSum (e K : ℕ) (p : ℕ → ℚ) : ℚ := forUp (fun i s => (sumFmt K e).cvt (s + p i)) K ((sumFmt K e).cvt (0 : ℚ))

/-- `ac_softmax_pwl_new_ptr`, and `ac_softmax_pwl_new`, which calls it. ac_softmax_pwl_new.h:110-184 -/
def softmaxNew (e l : ℕ) (q : QMode) (f out : Fmt) (K : ℕ) (x : ℕ → ℚ) (junk : ℤ) : Option (List ℚ) := do
  let ef ← (List.range K).mapM fun i => expFrac e l q f (x i)
  let im := maxInt l f K x junk
  let p : ℕ → ℚ := fun i => prod e l f im (x i) (ef.getD i 0)
  let s := prodSum e K p
  let r ← PwlFixed.reciprocal q (sumFmt K e) (recFmt K e) s
  some ((List.range K).map fun i => out.cvt (p i * r))

/-! ## ac_softmax_pwl.h, with the default types of the exponentials and of the reciprocal (`or_e` and `or_r` false) -/

/-- `exp_int_bits`; the shift needs `I - S` not to be negative. ac_softmax_pwl.h:127 -/
def expIntBits (f : Fmt) : ℕ := ⌊(1443 / 1000 : ℚ) * 2 ^ (f.I - if f.S then 1 else 0 : ℤ).toNat⌋.toNat + 1

/-- `T_exp`. ac_softmax_pwl.h:126-133; the fraction bits `exp_frac_bits` are those of `defaultE`. -/
def expT (f : Fmt) : Fmt := ⟨defaultE f + expIntBits f, expIntBits f, false, .TRN, .WRAP⟩

/-- `T_sum`. ac_softmax_pwl.h:134 -/
def sumT (K : ℕ) (f : Fmt) : Fmt := ⟨(expT f).W + log2Ceil K, (expT f).I + log2Ceil K, false, .TRN, .WRAP⟩

/-- `T_recip`. ac_softmax_pwl.h:140-144 -/
def recT (K : ℕ) (f : Fmt) : Fmt := ⟨(sumT K f).W + 20, (sumT K f).W - (sumT K f).I + 1, false, .TRN, .WRAP⟩

/-- `ac_softmax_pwl`. ac_softmax_pwl.h:110-166 -/
def softmax (q : QMode) (f out : Fmt) (K : ℕ) (x : ℕ → ℚ) : Option (List ℚ) := do
  let ex ← (List.range K).mapM fun i => PwlFixed.exp 12 q f (expT f) (x i)
  let s := forUp (fun i s => (sumT K f).cvt (s + ex.getD i 0)) K ((sumT K f).cvt (0 : ℚ))
  let r ← PwlFixed.reciprocal q (sumT K f) (recT K f) s
  some ((List.range K).map fun i => out.cvt (r * ex.getD i 0))

end Model.Softmax
