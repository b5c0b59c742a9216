import Verif.Model.Normalize
import Verif.Model.Shift
import Verif.Model.PwlFixed
import Verif.Ac.Loop

/-! # Model of the ac_fixed functions of ac_hcordic.h: logarithms, exponentials and powers by hyperbolic CORDIC

The constants of the file are sums of doubles, each converted to `ac_fixed<63,0>` or `ac_fixed<159,..>` by truncation;
they are given here as the integers that result. -/

namespace Model.Hcordic
open Ac Model.Normalize

/-- `hcordic_table`, in units of `2^-63`. ac_hcordic.h:141-200 -/
def table : List ℤ := [
    5066454931323234909, 2355767386976068430, 1158983235132127081, 577213116383417966, 288324256157907090, 144126917918172051,
    72059060107121069, 36028980272579670, 18014421416026658, 9007202118054161, 4503599985284488, 2251799858424492,
    1125899912435029, 562949954120362, 281474976798037, 140737488366250, 70368744179029, 35184372089002, 17592186044437,
    8796093022210, 4398046511104, 2199023255552, 1099511627776, 549755813888, 274877906944, 137438953472, 68719476736,
    34359738368, 17179869184, 8589934592, 4294967296, 2147483648, 1073741824, 536870912, 268435456, 134217728, 67108864,
    33554432, 16777216, 8388608, 4194304, 2097152, 1048575, 524288, 262144, 131072, 65536, 32768, 16384, 8192, 4096, 2048,
    1024, 512, 256, 128, 64]

/-- `hcordic_table_inv_ln2`, in units of `2^-63`. ac_hcordic.h:202-261 -/
def tableInvLn2 : List ℤ := [
    7309349404307464679, 3398653926678325526, 1672059365798567171, 832742500542421177, 415963974527011729, 207931189739157500,
    103959248667663302, 51978831167536983, 25989316441385597, 12994645828001305, 6497321364917540, 3248660488823484,
    1624330220207335, 812165107078116, 406082553160864, 203041276533158, 101520638260669, 50760319129596, 25380159564705,
    12690079782341, 6345039891169, 3172519945584, 1586259972792, 793129986396, 396564993198, 198282496599, 99141248299,
    49570624149, 24785312074, 12392656037, 6196328018, 3098164009, 1549082004, 774541002, 387270501, 193635250, 96817625,
    48408812, 24204406, 12102203, 6051101, 3025550, 1512775, 756387, 378193, 189096, 94548, 47274, 23637, 11818, 5909, 2954,
    1477, 738, 369, 184, 92]

/-- `shift_dist_table`. ac_hcordic.h:262-269 -/
def shiftDist : List ℕ := [
    1, 2, 3, 4, 4, 5, 6, 7, 8, 9, 10, 11, 12, 13, 13, 14, 15, 16, 17, 18, 19, 20, 21, 22, 23, 24, 25, 26, 27, 28, 29, 30, 31,
    32, 33, 34, 35, 36, 37, 38, 39, 40, 40, 41, 42, 43, 44, 45, 46, 47, 48, 49, 50, 51, 52, 53, 54, 55, 56, 57]

/-- `_ln2`, in units of `2^-159`. ac_hcordic.h:286-289 -/
def ln2Raw : ℤ := 506517869649829535567849302923399275793268449683

/-- `_inv_ln2`, in units of `2^-158`. ac_hcordic.h:298-301 -/
def invLn2Raw : ℤ := 527125291107098488549442543258917378690764225876

/-- `_inv_K`, in units of `2^-158`. ac_hcordic.h:310-313 -/
def invKRaw : ℤ := 441189735401998536987264342300758141900289763252

/-- Sum of the `B0`, `B1`, `B2` of `XtraIters<J>`. ac_hcordic.h:271-284 -/
def xtra (J : ℕ) : ℕ := (if (1 ≤ J ∧ J ≤ 3) ∨ 14 ≤ J then 1 else 0) + (if 4 ≤ J ∧ J ≤ 13 then 2 else 0) + (if 14 ≤ J then 4 else 0)

/-- `ln2_function<W>`: `ac_fixed<W,0,false>`. ac_hcordic.h:291-296 -/
def ln2 (w : ℕ) : ℚ := (⟨w, 0, false, .TRN, .WRAP⟩ : Fmt).cvt ((ln2Raw : ℚ) / 2 ^ 159)

/-- `inv_ln2_function<W>`: `ac_fixed<W,1,false>`. ac_hcordic.h:303-308 -/
def invLn2 (w : ℕ) : ℚ := (⟨w, 1, false, .TRN, .WRAP⟩ : Fmt).cvt ((invLn2Raw : ℚ) / 2 ^ 158)

/-- `inv_K<W>`: `ac_fixed<W+1,1,false>`. ac_hcordic.h:315-320 -/
def invK (w : ℕ) : ℚ := (⟨w + 1, 1, false, .TRN, .WRAP⟩ : Fmt).cvt ((invKRaw : ℚ) / 2 ^ 158)

/-- `HCordicConstants::mode`. ac_hcordic.h:343-347 -/
inductive Mode
  | rotY | rotZ
  deriving DecidableEq

/-- `HCordicConstants::scale`. ac_hcordic.h:348-351 -/
inductive Scale
  | one | ln2
  deriving DecidableEq

/-- `hcordic_table_function<ZW>(i)` and `hcordic_table_inv_ln2_function<ZW>(i)`; `none` is a read outside the table.
ac_hcordic.h:322-327, 336-341 -/
def tableAt (sc : Scale) (zw i : ℕ) : Option ℚ :=
  ((if sc = .one then table else tableInvLn2)[i]?).map fun (r : ℤ) =>
    (⟨zw, 0, false, .TRN, .WRAP⟩ : Fmt).cvt ((r : ℚ) / 2 ^ 63)

/-- `L`, for `f = ZW - ZI`. ac_hcordic.h:362-364 -/
def iters (f : ℕ) : ℕ := f + xtra f

/-- `LW`. ac_hcordic.h:366 -/
def lw (f : ℕ) : ℕ := iters f + nbits (iters f)

/-- `dp_t`, `i` being the number of integer bits of the type of `x` and `y`. ac_hcordic.h:368 -/
def dpFmt (i : ℤ) (f : ℕ) : Fmt := ⟨lw f, i + 1, true, .TRN, .WRAP⟩

/-- `xi`, `yi`, `zi`. -/
structure St where
  x : ℚ
  y : ℚ
  z : ℚ
  deriving DecidableEq

/-- The body of the loop; `t` is `dp_t`. `none` is a read outside one of the tables. ac_hcordic.h:374-400 -/
def step (mode : Mode) (sc : Scale) (t : Fmt) (zw j : ℕ) (s : St) : Option St := do
  let d ← shiftDist[j]?
  let a ← tableAt sc zw (d - 1)
  let e := t.cvt a
  let dir : Bool := if mode = .rotY then s.y < 0 else 0 ≤ s.z
  let xd := t.cvt (t.shr s.x d)
  let yd := t.cvt (t.shr s.y d)
  some (if dir then ⟨t.cvt (s.x + yd), t.cvt (s.y + xd), t.cvt (s.z - e)⟩
    else ⟨t.cvt (s.x - yd), t.cvt (s.y - xd), t.cvt (s.z + e)⟩)

/-- The loop of `ac_hcordic`. ac_hcordic.h:374-400 -/
def loop (mode : Mode) (sc : Scale) (t : Fmt) (zw n : ℕ) (s : St) : Option St :=
  forUp (fun j s => s.bind (step mode sc t zw j)) n (some s)

/-- `ac_hcordic`: `fx` is the type of `x` and `y`, `fz` the type of `z`; the new values of the three. ac_hcordic.h:354-404 -/
def hcordic (mode : Mode) (sc : Scale) (fx fz : Fmt) (x y z : ℚ) : Option St :=
  let f := fz.F.toNat
  let t := dpFmt fx.I f
  (loop mode sc t (lw f) (iters f) ⟨t.cvt x, t.cvt y, t.cvt z⟩).map fun s => ⟨fx.cvt s.x, fx.cvt s.y, fz.cvt s.z⟩

/-- `ac_ln_rr` (`sc = one`) and `ac_log2_rr` (`sc = ln2`); the argument has type `fa`, the result type `fz`.
ac_hcordic.h:408-442 -/
def logRr (sc : Scale) (fa fz : Fmt) (x : ℚ) : Option ℚ :=
  let ew := (max fa.F fz.F).toNat
  let fc : Fmt := ⟨ew + 2, 2, true, .TRN, .WRAP⟩
  let fd : Fmt := ⟨ew + 3, 2, true, .TRN, .WRAP⟩
  (hcordic .rotY sc fc fd (fc.cvt (fc.cvt x + 1)) (fc.cvt (fc.cvt x - 1)) (fd.cvt (0 : ℚ))).map fun s => fz.cvt (2 * s.z)

/-- `ac_exp2_rr`; the argument has type `fa`, the result type `fz`. ac_hcordic.h:462-478 -/
def exp2Rr (fa fz : Fmt) (x : ℚ) : Option ℚ :=
  let ew := max fa.W fz.W
  let fc : Fmt := ⟨ew + 3, 3, true, .TRN, .WRAP⟩
  let l := fc.cvt (ln2 ew)
  (hcordic .rotZ .one fc fc (fc.cvt (1 : ℚ)) (fc.cvt (1 : ℚ)) (fc.cvt (x * l))).map fun s =>
    fz.cvt (fc.cvt (s.y * fc.cvt (invK ew)))

/-- `ac_exp_rr`; the argument has any type, the result type `fz`. ac_hcordic.h:444-460 -/
def expRr (fz : Fmt) (x : ℚ) : Option ℚ :=
  let ew := fz.F.toNat
  let fc : Fmt := ⟨ew + 3, 3, true, .TRN, .WRAP⟩
  (hcordic .rotZ .one fc fc (fc.cvt (1 : ℚ)) (fc.cvt (1 : ℚ)) (fc.cvt x)).map fun s =>
    fz.cvt (fc.cvt (s.y * fc.cvt (invK ew)))

/-- `OR_TF ? TF_ : w`: the parameter `tf` is `some TF_` if `OR_TF` is true. ac_hcordic.h:505, 511, 1291 -/
def fbits (tf : Option ℕ) (w : ℕ) : ℕ := tf.getD w

/-- `x_norm_2`, and the exponent: the input is normalized and then cut to the type of `x_norm_2`. ac_hcordic.h:498-509 -/
def normed (tf : Option ℕ) (tq : QMode) (f : Fmt) (x : ℚ) : ℚ × ℤ :=
  let ne := normalize f (f.raw x)
  ((⟨fbits tf f.W, 0, false, tq, .WRAP⟩ : Fmt).cvt ne.1, ne.2)

/-- `OFW`. ac_hcordic.h:519 -/
def ofw (f : Fmt) : ℕ := nbits (max (f.W - f.I) f.I).toNat

/-- The type of `z_inter`. ac_hcordic.h:529-530 -/
def interFmt (out : Fmt) : Fmt := { out with O := if out.S then .WRAP else .SAT }

/-- `ac_log_cordic`: `ac_log_` with `BASE_E`; the input is unsigned. ac_hcordic.h:487-586, 664-672 -/
def log (tf : Option ℕ) (tq : QMode) (f out : Fmt) (x : ℚ) : Option ℚ := do
  let ne := normed tf tq f x
  let zf := fbits tf out.F.toNat
  let zc ← logRr .one ⟨fbits tf f.W, 0, false, tq, .WRAP⟩ ⟨zf + 1, 1, true, .TRN, .WRAP⟩ ne.1
  let fo : Fmt := ⟨zf + 1 + ofw f + 1, ofw f + 1, true, .TRN, .WRAP⟩
  let offset := fo.cvt (fo.cvt (ln2 (zf + 1)) * ne.2)
  some (out.cvt ((interFmt out).cvt (offset + zc)))

/-- `ac_log2_cordic`: `ac_log_` with `BASE_2`; the input is unsigned. ac_hcordic.h:487-586, 594-602 -/
def log2 (tf : Option ℕ) (tq : QMode) (f out : Fmt) (x : ℚ) : Option ℚ := do
  let ne := normed tf tq f x
  let zf := fbits tf out.F.toNat
  let zc ← logRr .ln2 ⟨fbits tf f.W, 0, false, tq, .WRAP⟩ ⟨zf + 2, 2, true, .TRN, .WRAP⟩ ne.1
  let offset := (⟨ofw f + 1, ofw f + 1, true, .TRN, .WRAP⟩ : Fmt).cvt (ne.2 : ℚ)
  some (out.cvt ((interFmt out).cvt (offset + zc)))

/-- `ac_exp2_cordic`, unsigned output: `xF` holds the low `W - I` bits of the input, `x.to_int()` is the integer part.
ac_hcordic.h:1268-1308 -/
def exp2 (tf : Option ℕ) (tq : QMode) (f out : Fmt) (x : ℚ) : Option ℚ := do
  let xF := PwlFixed.fracPart f x
  let o : Fmt := ⟨fbits tf out.F.toNat + 1, 1, false, tq, .WRAP⟩
  let y ← exp2Rr ⟨(max (f.W - f.I) 1).toNat, 0, false, .TRN, .WRAP⟩ o xF
  some (out.cvt (Shift.leftUS o out (o.raw y) ⌊x⌋))

/-- `x_to_exp2` of `ac_exp_cordic`: its type. ac_hcordic.h:1386 -/
def expFmt (tf : Option ℕ) (tq : QMode) (f out : Fmt) : Fmt :=
  ⟨(fbits tf out.F.toNat + f.I + 1).toNat, f.I + 1, f.S, tq, .WRAP⟩

/-- `ac_exp_cordic`, unsigned output. ac_hcordic.h:1369-1388 -/
def exp (tf : Option ℕ) (tq : QMode) (f out : Fmt) (x : ℚ) : Option ℚ :=
  let t := fbits tf out.F.toNat
  let k := (⟨t + 1, 1, false, .TRN, .WRAP⟩ : Fmt).cvt (invLn2 (t + 1))
  exp2 tf tq (expFmt tf tq f out) out ((expFmt tf tq f out).cvt (x * k))

/-- `log2_a_type`. ac_hcordic.h:2045, 2053-2055 -/
def log2aFmt (tf : Option ℕ) (fa out : Fmt) : Fmt :=
  ⟨fbits tf out.W, (max (nbits (fa.W - fa.I).toNat) (nbits fa.I.toNat) : ℕ) + 1, true, .TRN, .WRAP⟩

/-- Type of `prod`. ac_hcordic.h:2058-2066 -/
def prodFmt (tf : Option ℕ) (fa fb out : Fmt) : Fmt :=
  let l := log2aFmt tf fa out
  let i := l.I + fb.I
  ⟨(min (l.W + fb.W - i) 45 + i).toNat, i, true, .TRN, .WRAP⟩

/-- `ac_pow_cordic`: `a` to the power `b`; `a` and the output are unsigned. ac_hcordic.h:2022-2068 -/
def pow (tf : Option ℕ) (tq : QMode) (fa fb out : Fmt) (a b : ℚ) : Option ℚ := do
  let ne := normed tf tq fa a
  let zf := fbits tf out.W
  let lg ← logRr .ln2 ⟨fbits tf fa.W, 0, false, tq, .WRAP⟩ ⟨zf + 2, 2, true, .TRN, .WRAP⟩ ne.1
  let l := (log2aFmt tf fa out).cvt (lg + ne.2)
  let p := prodFmt tf fa fb out
  exp2 tf tq p out (p.cvt (b * l))

end Model.Hcordic
